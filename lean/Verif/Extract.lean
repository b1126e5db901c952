import Verif.Order
import Verif.Sorted
/-
Extraction of index entries from a column value: rumExtractEntries.
-/
namespace Rum.Extract
open Rum

variable {K V : Type}

/-- keyEntryData, /repo/src/rumutil.c:679-685: key (`none`: NULL key) and additional info (`none`: NULL). When the operator
class delivers no addInfo array every entry has NULL additional info (/repo/src/rumutil.c:800-811), when it delivers no
nullFlags array no key is NULL (:819-820). -/
structure Raw (K V : Type) where
  key : Option K
  info : Option V

/-- One entry of the result: category, key, additional info. -/
structure Out (K V : Type) where
  cat : Cat
  key : Option K
  info : Option V

/-- cmpEntries (the comparator of the sort), /repo/src/rumutil.c:694-724. -/
def cmpRaw (cmpK : K → K → Ordering) (a b : Raw K V) : Ordering := cmpExtract cmpK a.key b.key

/-- nullFlags used as category codes, /repo/src/rumutil.c:826-827. -/
def toOut (r : Raw K V) : Out K V := ⟨if r.key.isNone then .nullKey else .norm, r.key, r.info⟩

/-- The loop that removes duplicates, /repo/src/rumutil.c:858-869: `prev` is `keydata[i - 1]`. -/
def dedup (cmpK : K → K → Ordering) (prev : Raw K V) : List (Raw K V) → List (Raw K V)
  | [] => []
  | r :: rs => if cmpRaw cmpK prev r ≠ .eq then r :: dedup cmpK r rs else dedup cmpK r rs

/-- rumExtractEntries, /repo/src/rumutil.c:734-888. `sort` is qsort_arg with the comparator, `haveDups` what the comparator
recorded while sorting. `value` is `none` for a NULL column, else what extractValueFn returned. -/
def extractEntries (cmpK : K → K → Ordering) (sort : List (Raw K V) → List (Raw K V)) (haveDups : List (Raw K V) → Bool)
    (value : Option (List (Raw K V))) : List (Out K V) :=
  match value with
  | none => [⟨.nullItem, none, none⟩]
  | some [] => [⟨.emptyItem, none, none⟩]
  | some [r] => [toOut r]
  | some raws =>
    match sort raws with
    | [] => []
    | r :: rs => if haveDups raws then (r :: dedup cmpK r rs).map toOut else (r :: rs).map toOut

end Rum.Extract
