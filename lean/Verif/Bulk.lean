import Verif.RowInsert
/-!
# CREATE INDEX: the accumulator and its flushes

`/repo/src/rumbulk.c`, and rumHeapTupleBulkInsert, rumBuildCallback, rumbuild in `/repo/src/ruminsert.c:485-732`.

Simplifications: the red-black tree of PostgreSQL (rbt_insert, rbt_iterate) is the list of its nodes in the order of a left-right walk; the memory
accounting is not modelled, the test `allocatedMemory >= maintenance_work_mem` after the n-th row has an arbitrary outcome; the write-ahead-log
images of the finished index (`/repo/src/ruminsert.c:702-720`) are not modelled, and a build that crashed leaves no index.
-/
namespace Rum.Index
open Rum Rum.Codec Rum.Leaf Rum.Entry Rum.Tree Rum.Extract

variable {V : Type}

/-- RumEntryAccumulator, `/repo/src/rum.h:813-823`: key, items in order of arrival, `shouldSort`. -/
structure Acc (V : Type) where
  key : AttKey V
  list : List (Item Datum)
  shouldSort : Bool

/-- `rumstate->useAlternativeOrder && attnum == rumstate->attrnAddToColumn`, as in `/repo/src/rumbulk.c:191-192, 327-328`. -/
def Ix.ownOrder (ix : Ix V) (attnum : Nat) : Bool := (ix.ctx attnum).cfg.alt && (ix.ctx attnum).isAddTo

/-- rumCombineData, `/repo/src/rumbulk.c:32-69`. -/
def Ix.combine (ix : Ix V) (eo : Acc V) (it : Item Datum) : Acc V where
  key := eo.key
  list := eo.list ++ [it]
  shouldSort :=
    if (ix.ctx eo.key.attnum).cfg.alt = false ∧ eo.shouldSort = false then
      match eo.list.getLast? with
      | some l => cmpIptr l.iptr it.iptr == .gt
      | none => false
    else eo.shouldSort

/-- The new node of rumInsertBAEntry, `/repo/src/rumbulk.c:171-199`. -/
def Ix.newAcc (ix : Ix V) (k : AttKey V) (it : Item Datum) : Acc V := ⟨k, [it], ix.ownOrder k.attnum⟩

/-- rumInsertBAEntry, `/repo/src/rumbulk.c:148-207`: rbt_insert with cmpEntryAccumulator (`:72-83`) and rumCombineData. -/
def Ix.baInsert (ix : Ix V) (k : AttKey V) (it : Item Datum) : List (Acc V) → List (Acc V)
  | [] => [ix.newAcc k it]
  | n :: ns =>
    match cmpAttEntries ix.cmpK k n.key with
    | .lt => ix.newAcc k it :: n :: ns
    | .eq => ix.combine n it :: ns
    | .gt => n :: ix.baInsert k it ns

/-- The first step of rumInsertBAEntries: `step |= step >> 1 ... ; step >>= 1; step++`, `/repo/src/rumbulk.c:241-249`. -/
def topStep (n : Nat) : Nat :=
  let s := n ||| (n >>> 1)
  let s := s ||| (s >>> 2)
  let s := s ||| (s >>> 4)
  let s := s ||| (s >>> 8)
  let s := s ||| (s >>> 16)
  (s >>> 1) + 1

/-- The inner loop, `/repo/src/rumbulk.c:255-257`: the values of `i`. (When `i` would overflow an int it turns negative and the loop ends; here it is
then too large, with the same effect.) -/
def innerVisits (n step i : Nat) : List Nat :=
  if h : i < n ∧ 0 < step then i :: innerVisits n step (i + 2 * step) else []
termination_by n - i
decreasing_by omega

/-- The outer loop, `/repo/src/rumbulk.c:251-260`. -/
def visits (n step : Nat) : List Nat :=
  if _h : 0 < step then innerVisits n step (step - 1) ++ visits n (step / 2) else []
termination_by step
decreasing_by omega

/-- rumInsertBAEntries, `/repo/src/rumbulk.c:224-261`. -/
def Ix.baInsertEntries (ix : Ix V) [Inhabited V] (attnum : Nat) (tid : Iptr) (acc : List (Acc V)) (es : List (Out V Datum)) : List (Acc V) :=
  if es.length = 0 then acc
  else (visits es.length (topStep es.length)).foldl (fun acc i =>
    match es[i]? with
    | some o => ix.baInsert (outKey attnum o) ⟨tid, o.info⟩ acc
    | none => acc) acc

/-- rumGetBAEntry, `/repo/src/rumbulk.c:297-340`. `qsort cmp` is qsort or qsort_arg of PostgreSQL with that comparator. -/
def Ix.getBAEntry (ix : Ix V) (qsort : (Item Datum → Item Datum → Ordering) → List (Item Datum) → List (Item Datum)) (n : Acc V) :
    AttKey V × List (Item Datum) :=
  (n.key,
    if n.list.length > 1 then
      if ix.ownOrder n.key.attnum then qsort (ix.ctx n.key.attnum).cmp n.list
      else if n.shouldSort then qsort (fun a b => cmpIptr a.iptr b.iptr) n.list
      else n.list
    else n.list)

/-- The dump of the accumulator, `/repo/src/ruminsert.c:591-600, 680-689`. -/
def Ix.flush (ix : Ix V) [Inhabited V] (qsort : (Item Datum → Item Datum → Ordering) → List (Item Datum) → List (Item Datum)) (st : State V)
    (acc : List (Acc V)) : State V × Bool :=
  ix.insertAll st (acc.map (ix.getBAEntry qsort))

/-- rumHeapTupleBulkInsert, `/repo/src/ruminsert.c:491-548`; `none`: error. -/
def Ix.bulkCol (ix : Ix V) [Inhabited V] (rc : RowCfg V) (r : Row V) (acc : List (Acc V)) (attnum : Nat) : Option (List (Acc V)) :=
  let es := ix.colEntries rc attnum r
  if es.any (fun o => o.info.isSome && !rc.addAttrs attnum) then none
  else some (ix.baInsertEntries attnum r.tid acc es)

/-- The loop over the columns of rumBuildCallback, `/repo/src/ruminsert.c:575-579`. -/
def Ix.bulkRow (ix : Ix V) [Inhabited V] (rc : RowCfg V) (r : Row V) : List (Acc V) → List Nat → Option (List (Acc V))
  | acc, [] => some acc
  | acc, a :: as =>
    match ix.bulkCol rc r acc a with
    | some acc' => ix.bulkRow rc r acc' as
    | none => none

/-- rumBuildCallback for each row of the heap scan, then the last dump, `/repo/src/ruminsert.c:551-608, 676-690`. `full n`: the memory is used up after
row `n`. -/
def Ix.buildRows (ix : Ix V) [Inhabited V] (rc : RowCfg V) (qsort : (Item Datum → Item Datum → Ordering) → List (Item Datum) → List (Item Datum))
    (full : Nat → Bool) : Nat → List (Acc V) → State V → List (Row V) → State V × Bool
  | _, acc, st, [] => ix.flush qsort st acc
  | n, acc, st, r :: rs =>
    match ix.bulkRow rc r acc ((List.range rc.natts).map (· + 1)) with
    | none => (st, false)
    | some acc' =>
      if full n then
        let u := ix.flush qsort st acc'
        if u.2 then ix.buildRows rc qsort full (n + 1) [] u.1 rs else u
      else ix.buildRows rc qsort full (n + 1) acc' st rs

/-- rumbuild, `/repo/src/ruminsert.c:610-732`. -/
def Ix.buildIndex (ix : Ix V) [Inhabited V] (rc : RowCfg V) (qsort : (Item Datum → Item Datum → Ordering) → List (Item Datum) → List (Item Datum))
    (full : Nat → Bool) (rs : List (Row V)) : State V × Bool :=
  { ix with build := true }.buildRows rc qsort full 0 [] emptyIndex rs

end Rum.Index
