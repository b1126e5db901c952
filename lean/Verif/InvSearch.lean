import Verif.TextSearch
import Verif.InvTsquery
/-!
# Inverted searches: columns of type tsquery searched with documents (rum_tsquery_ops)
-/
namespace Rum.Index
open Rum Rum.Codec Rum.Leaf Rum.Entry Rum.Tree Rum.Extract Rum.FullText

variable {V : Type} [DecidableEq V]

/-- ruminv_extract_tsquery, `/repo/src/rumtsquery.c:352-403`, as the entries rumExtractEntries gets: the lexemes, each with its encoded paths as a bytea
(given the way it will be stored, with a short header where possible), then the NULL entry if the query matches documents without any of its words. -/
def invEntries (a : Attr) (es : Inv.Entries V) : List (Raw V Datum) :=
  es.lex.map (fun p => ⟨some p.1, some (Datum.stored a (.varlena .full p.2))⟩) ++ (if es.null then [⟨none, none⟩] else [])

/-- A tsquery column; rumExtractEntries does not call the function for NULL, `/repo/src/rumutil.c:751-766`. Queries for which extraction fails (prefixes, phrases) make
the insertion fail; such rows are not in the table, and what stands here for them does not matter. -/
def invValue (a : Attr) : Option (Inv.Query V) → Option (List (Raw V Datum))
  | none => none
  | some q => match Inv.extractQuery q with
    | none => some []
    | some es => some (invEntries a es)

/-- A condition `column @@ document` on a tsquery column; `doc` are the distinct lexemes of the tsvector in its order. -/
structure InvCond (V : Type) where
  attnum : Nat
  doc : List V

/-- The entries of ruminv_extract_tsvector, `/repo/src/rumtsquery.c:405-447`: the lexemes and the NULL entry. -/
def InvCond.looks [Inhabited V] (c : InvCond V) : List (Look V) :=
  c.doc.map (fun l => ⟨.norm, l, .exact⟩) ++ [⟨.nullKey, default, .exact⟩]

/-- `check[i]` and `addInfo[i]` of the lexemes for ruminv_tsvector_consistent; `none`: "Unexpected addInfoIsNull", `/repo/src/rumtsquery.c:490-491`. -/
def invKeys : List (Option (Option Datum)) → Option (List (Option (List Nat)))
  | [] => some []
  | none :: v => (invKeys v).map (none :: ·)
  | some none :: _ => none
  | some (some d) :: v => (invKeys v).map (some (dataBytes d) :: ·)

/-- The scan key of a condition, with ruminv_tsvector_consistent (`/repo/src/rumtsquery.c:459-587`), which never asks for a recheck. `junk` is the uninitialised array on
the stack, `bad` whatever happens where the function's behaviour is undefined or it fails. -/
def InvCond.clause [Inhabited V] (junk : List (Option (Option Datum)) → Nat → Inv.Node) (bad : List (Option (Option Datum)) → Bool) (c : InvCond V) : Clause V :=
  ⟨c.attnum, c.looks,
   fun v => (match invKeys (v.take c.doc.length) with
     | none => bad v
     | some ks => (Inv.consistent (junk v) ks ((v.getD c.doc.length none).isSome)).getD (bad v), false)⟩

/-- A search by such conditions: nothing if one of the documents is empty, for it has no entries in the default mode (isVoidRes, `/repo/src/rumscan.c:413-423`). -/
def Ix.findInv (ix : Ix V) [Inhabited V] (rc : RowCfg V) (alternative : Bool) (stack : List (Option (Option Datum)) → Nat → Inv.Node)
    (bad : List (Option (Option Datum)) → Bool) (sort : (Item Datum → Item Datum → Ordering) → List (Item Datum) → List (Item Datum))
    (join : Nat → Option (Datum → Datum → Datum)) (st : State V) (junk : Item Datum) (n : Nat) (c : InvCond V) (cs : List (InvCond V)) :
    Option (List (Item Datum × Bool) × Bool) :=
  if (c :: cs).any (fun d => d.doc.isEmpty) then some ([], true)
  else ix.find rc alternative sort join st junk n (c.clause stack bad) (cs.map (fun d => d.clause stack bad))

end Rum.Index
