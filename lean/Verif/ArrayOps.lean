import Verif.SortUniq
/-
Array operator class (/repo/src/rum_arr_utils.c).
-/
set_option linter.unusedSectionVars false
namespace Rum.Arr
open Std

/-- The float8 operations used on similarities. Their laws are assumptions of the theorems that need them. -/
structure Float8 (F : Type) where
  ofInt : Nat → F
  add : F → F → F
  sub : F → F → F
  mul : F → F → F
  div : F → F → F
  sqrt : F → F
  inf : F
  ge : F → F → Bool
  isZero : F → Bool

/-- `rum.array_similarity_function`, /repo/src/rum.h:874-879. -/
inductive SimFn where
  | cosine | jaccard | overlap
deriving DecidableEq

variable {F : Type} (fl : Float8 F)

/-- getSimilarity, /repo/src/rum_arr_utils.c:863-893. -/
def getSimilarity (fn : SimFn) (na nb inter : Nat) : F :=
  match fn with
  | .cosine => fl.div (fl.ofInt inter) (fl.sqrt (fl.mul (fl.ofInt na) (fl.ofInt nb)))
  | .jaccard => fl.div (fl.ofInt inter) (fl.sub (fl.add (fl.ofInt na) (fl.ofInt nb)) (fl.ofInt inter))
  | .overlap => fl.ofInt inter

/-- DIST_FROM_SML, /repo/src/rum_arr_utils.c:79-80. -/
def distFromSml (s : F) : F := if fl.isZero s then fl.inf else fl.div (fl.ofInt 1) s

variable {α : Type} (cmp : α → α → Ordering)

/-- The merge loop of getNumOfIntersect, /repo/src/rum_arr_utils.c:842-857. -/
def interLoop : List α → List α → Nat
  | [], _ => 0
  | _ :: _, [] => 0
  | a :: as, b :: bs =>
    match cmp a b with
    | .lt => interLoop as (b :: bs)
    | .gt => interLoop (a :: as) bs
    | .eq => interLoop as bs + 1
termination_by as bs => as.length + bs.length

/-- Array2SimpleArray, sortSimpleArray, uniqSimpleArray, /repo/src/rum_arr_utils.c:692-818: the distinct elements in
order. Arrays with NULLs or several dimensions are rejected by CHECKARRVALID. -/
def simple (a : List α) : List α := uniq cmp (qsort cmp a)

/-- rum_anyarray_similar (the operator %), /repo/src/rum_arr_utils.c:470-508. getNumOfIntersect makes both arrays
distinct in place before getSimilarity reads their sizes. -/
def similarOp (fn : SimFn) (thr : F) (a b : List α) : Bool :=
  if a.isEmpty ∨ b.isEmpty then false
  else fl.ge (getSimilarity fl fn (simple cmp a).length (simple cmp b).length (interLoop cmp (simple cmp a) (simple cmp b))) thr

/-- rum_anyarray_distance (the operator <=>), /repo/src/rum_arr_utils.c:510-551. `zero` is the literal `0.0`. -/
def distanceOp (fn : SimFn) (zero : F) (a b : List α) : F :=
  if a.isEmpty ∨ b.isEmpty then zero
  else distFromSml fl (getSimilarity fl fn (simple cmp a).length (simple cmp b).length
    (interLoop cmp (simple cmp a) (simple cmp b)))

/-- Strategies, /repo/src/rum_arr_utils.c:40-44. -/
inductive Strategy where
  | overlap | contains | contained | equal | similar
deriving DecidableEq

/-- Search modes. -/
inductive Mode where
  | dflt | includeEmpty | all
deriving DecidableEq

/-- rum_extract_anyarray_query's search mode, /repo/src/rum_arr_utils.c:233-266. -/
def searchMode (s : Strategy) (nentries : Nat) : Mode :=
  match s with
  | .overlap => .dflt
  | .contains => if nentries > 0 then .dflt else .all
  | .contained => .includeEmpty
  | .equal => if nentries > 0 then .dflt else .includeEmpty
  | .similar => .dflt

/-- What the scan passes for one query entry: `check[i]` and the additional info (`none`: NULL),
/repo/src/rumget.c:1466-1488. -/
structure Chk where
  check : Bool
  info : Option Nat

/-- rum_anyarray_consistent, /repo/src/rum_arr_utils.c:277-419: result and `*recheck`. No query entry is NULL (CHECKARRVALID),
so `nullFlags` are all false. -/
def consistent (fn : SimFn) (thr : F) (s : Strategy) (cs : List Chk) : Bool × Bool :=
  match s with
  | .overlap => (cs.any (fun c => c.check), false)
  | .contains => (cs.all (fun c => c.check), false)
  | .contained => (cs.all (fun c => match c.info with | some n => n ≤ cs.length | none => true), true)
  | .equal => (cs.all (fun c => c.check && (match c.info with | some n => n == cs.length | none => true)), true)
  | .similar =>
    let inter := (cs.filter (fun c => c.check)).length
    if inter > 0 then
      match cs.findSome? (fun c => c.info) with
      | some n => (fl.ge (getSimilarity fl fn n cs.length inter) thr, false)
      | none => (false, false)   -- Assert(nentries >= 0): cannot happen
    else (false, false)

/-- rum_anyarray_ordering, /repo/src/rum_arr_utils.c:426-468. `zero` is `0.0`. -/
def ordering (fn : SimFn) (zero : F) (cs : List Chk) : F :=
  let inter := (cs.filter (fun c => c.check)).length
  if inter > 0 then
    match cs.findSome? (fun c => c.info) with
    | some n => distFromSml fl (getSimilarity fl fn n cs.length inter)
    | none => distFromSml fl zero
  else distFromSml fl zero

variable [BEq α]

/-- The index entries of a row (rum_extract_anyarray, /repo/src/rum_arr_utils.c:172-207: the distinct elements, each with
their number as additional info) seen from the query's entries. -/
def checks (row query : List α) : List Chk :=
  (simple cmp query).map (fun k =>
    if (simple cmp row).contains k then ⟨true, some (simple cmp row).length⟩ else ⟨false, none⟩)

/-- Does the scan look at the row at all? In the default mode the row must have one of the query's entries; with
INCLUDE_EMPTY also rows without any entry (stored under the empty-item placeholder) are visited; with ALL every row is. -/
def visited (m : Mode) (row query : List α) : Bool :=
  match m with
  | .dflt => (checks cmp row query).any (fun c => c.check)
  | .includeEmpty => (checks cmp row query).any (fun c => c.check) || (simple cmp row).isEmpty
  | .all => true

/-- The index's decision about a row: returned or not, and whether a recheck is requested. -/
def indexDecision (fn : SimFn) (thr : F) (s : Strategy) (row query : List α) : Bool × Bool :=
  if visited cmp (searchMode s (simple cmp query).length) row query then consistent fl fn thr s (checks cmp row query)
  else (false, false)

/-! ### Specification -/

/-- PostgreSQL's array operators on arrays without NULLs. -/
def Holds (s : Strategy) (row query : List α) (sim : Bool) : Prop :=
  match s with
  | .overlap => ∃ x, x ∈ row ∧ x ∈ query
  | .contains => ∀ x ∈ query, x ∈ row
  | .contained => ∀ x ∈ row, x ∈ query
  | .equal => row = query
  | .similar => sim = true

end Rum.Arr
