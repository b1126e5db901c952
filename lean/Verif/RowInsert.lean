import Verif.EntryTree
import Verif.Extract
/-!
# Insertion of a row

ruminsert and rumHeapTupleInsert, `/repo/src/ruminsert.c:760-870`.

Simplification: the value of a column is given as what its operator class's extractValue support function returned for it; the abort of the
statement at an `elog(ERROR)` is the flag `false`.
-/
namespace Rum.Index
open Rum Rum.Codec Rum.Leaf Rum.Entry Rum.Tree Rum.Extract

variable {V : Type}

/-- What row insertion needs of RumState: number of columns, sorting of extracted keys (qsort_arg and what its comparator records), the column
additional info is attached to (attrnAddToColumn), and which columns have an additional info attribute (addAttrs). -/
structure RowCfg (V : Type) where
  natts : Nat
  sort : Nat → List (Raw V Datum) → List (Raw V Datum)
  haveDups : Nat → List (Raw V Datum) → Bool
  addTo : Option Nat
  addAttrs : Nat → Bool

/-- A row: heap TID, for each column NULL or the extracted keys, and the value of the attached column (`none`: NULL, or no such column). -/
structure Row (V : Type) where
  tid : Iptr
  value : Nat → Option (List (Raw V Datum))
  outer : Option Datum

/-- The entries of one column of a row with their additional info, `/repo/src/ruminsert.c:776-792`. -/
def Ix.colEntries (ix : Ix V) (rc : RowCfg V) (attnum : Nat) (r : Row V) : List (Out V Datum) :=
  let es := extractEntries (ix.cmpK attnum) (rc.sort attnum) (rc.haveDups attnum) (r.value attnum)
  if rc.addTo = some attnum then es.map (fun e => { e with info := r.outer }) else es

/-- The entry as a key of the index. A NULL key is the zero Datum. -/
def outKey [Inhabited V] (attnum : Nat) (o : Out V Datum) : AttKey V := ⟨attnum, o.cat, o.key.getD default⟩

/-- rumHeapTupleInsert, `/repo/src/ruminsert.c:764-812`: states and success. -/
def Ix.insertEntries (ix : Ix V) [Inhabited V] (rc : RowCfg V) (attnum : Nat) (tid : Iptr) (st : State V) : List (Out V Datum) → State V × Bool
  | [] => (st, true)
  | o :: os =>
    if o.info.isSome && !rc.addAttrs attnum then (st, false)
    else
      let r := ix.entryInsert st (outKey attnum o) [⟨tid, o.info⟩]
      if r.2 then ix.insertEntries rc attnum tid (lastState st r.1) os else (lastState st r.1, false)

/-- The loop over the columns of ruminsert, `/repo/src/ruminsert.c:858-862`; `cols` are the column numbers that are left. -/
def Ix.insertCols (ix : Ix V) [Inhabited V] (rc : RowCfg V) (r : Row V) (st : State V) : List Nat → State V × Bool
  | [] => (st, true)
  | a :: as =>
    let u := ix.insertEntries rc a r.tid st (ix.colEntries rc a r)
    if u.2 then ix.insertCols rc r u.1 as else u

/-- ruminsert, `/repo/src/ruminsert.c:817-870`. -/
def Ix.insertRow (ix : Ix V) [Inhabited V] (rc : RowCfg V) (st : State V) (r : Row V) : State V × Bool :=
  ix.insertCols rc r st ((List.range rc.natts).map (· + 1))

/-- A sequence of row insertions. -/
def Ix.insertRows (ix : Ix V) [Inhabited V] (rc : RowCfg V) (st : State V) : List (Row V) → State V × Bool
  | [] => (st, true)
  | r :: rs =>
    let u := ix.insertRow rc st r
    if u.2 then ix.insertRows rc u.1 rs else u

end Rum.Index
