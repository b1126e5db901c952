import Verif.Sort
import Verif.Sorted
/-!
# ORDER BY without WHERE: the full-index scan with additional information (`/repo/src/rumget.c:1031-1176`, `2248-2322`)

Without filter keys, rumNewScanKey (`/repo/src/rumscan.c:604-613`) makes one key whose hidden entry walks over all entry tuples of the first
column; the entries of the ORDER BY keys are moved along to compute distances.
-/
namespace Rum.Full
open Rum Rum.Sort

variable {V : Type}

/-- An entry tuple: its column and its items, in a posting list or a posting tree. After VACUUM, tuples may have no items: they are never
removed (`/repo/src/rumvacuum.c:564-648`). -/
structure Tup (V : Type) where
  col : Nat
  tree : Bool
  items : List (Item V)

/-- entryGetNextItemList called again and again, `/repo/src/rumget.c:1031-1176`: the tuples from `stack->off` on, until a tuple of another column
(`:1082-1088`) or the end of the index (`:1065-1071`). For every item: is it the first of its tuple (`nextEntryList`). `none`: `entry->list[0]` is read
although there is no such element (`:1162`; a posting list without items leaves `entry->list` NULL). Posting trees deliver their items (C23). -/
def listsFrom (col : Nat) : List (Tup V) → Option (List (Bool × Item V))
  | [] => some []
  | t :: ts =>
    if t.col ≠ col then some []
    else match t.items with
      | [] => none
      | y :: ys => (listsFrom col ts).map (fun r => ((true, y) :: ys.map (fun z => (false, z))) ++ r)

/-- The hidden entry of the full scan: startScanEntry on the first tuple of the index (`/repo/src/rumget.c:621-704`), then entryGetItem
(`:1329-1366`). `stack->off` still points to the first tuple when the first list is exhausted, so that it is read twice. A first tuple whose posting
list has no items leaves the entry finished (`:584`, `:686`). -/
def fullVisits (col : Nat) : List (Tup V) → Option (List (Bool × Item V))
  | [] => some []
  | t :: ts =>
    match t.tree, t.items with
    | false, [] => some []
    | true, [] => none
    | _, _ => (listsFrom col (t :: ts)).map (fun r => t.items.map (fun z => (false, z)) ++ r)

/-- An entry of an ORDER BY key: the order of its column, the loaded list (`list`, `nlist`), `offset`, the pages to the right (posting tree),
`curItem`, `isFinished`. -/
structure OEnt (V : Type) where
  cmp : Item V → Item V → Ordering
  page : List (Item V)
  off : Nat
  next : List (List (Item V))
  cur : Item V
  fin : Bool

/-- startScanEntry for an ORDER BY entry; a posting list is a single page. -/
def OEnt.start (cmp : Item V → Item V → Ordering) : List (List (Item V)) → OEnt V
  | (y :: ys) :: ps => ⟨cmp, y :: ys, 0, ps, y, false⟩
  | _ => ⟨cmp, [], 0, [], ⟨⟨0, 0⟩, none⟩, true⟩

/-- entryGetItem on it, `/repo/src/rumget.c:1329-1360`. At the end of a posting tree the last page stays loaded. -/
def OEnt.get (e : OEnt V) : OEnt V :=
  match e.page[e.off]? with
  | some y => { e with cur := y, off := e.off + 1 }
  | none =>
    match e.next.dropWhile (·.isEmpty) with
    | (y :: ys) :: ps => ⟨e.cmp, y :: ys, 1, ps, y, false⟩
    | _ => { e with fin := true }

/-- `nextEntryList`: back to the start of the loaded list, `/repo/src/rumget.c:2290-2300`. -/
def OEnt.reset (e : OEnt V) : OEnt V :=
  if e.page.length > 0 then { e with fin := false, off := 0, cur := ⟨⟨0, 0⟩, none⟩ } else e

/-- The `while` that moves an ORDER BY entry to the item, `/repo/src/rumget.c:2302-2312`; `n` bounds the number of steps. -/
def OEnt.moveTo (it : Item V) : Nat → OEnt V → OEnt V
  | 0, e => e
  | n + 1, e => if e.fin = false ∧ (e.cur.iptr.off = 0 ∨ e.cmp e.cur it = .lt) then moveTo it n e.get else e

/-- Number of steps that is always enough. -/
def OEnt.fuel (e : OEnt V) : Nat := e.page.length + e.next.flatten.length + 2

/-- What keyGetOrdering hands to the distance function, `/repo/src/rumget.c:2419-2434`. -/
def OEnt.view (e : OEnt V) (tid : Iptr) : Option (Option V) :=
  if e.fin = false ∧ cmpIptr e.cur.iptr tid = .eq then some e.cur.info else none

/-- scanGetItemFull called until it returns false, `/repo/src/rumget.c:2253-2318`, with the distance arguments of every item. -/
def fullRun : List (OEnt V) → List (Bool × Item V) → List (Item V × List (Option (Option V)))
  | _, [] => []
  | es, (b, it) :: vs =>
    let es1 := if b then es.map OEnt.reset else es
    let es2 := es1.map (fun e => e.moveTo it e.fuel)
    (it, es2.map (fun e => e.view it.iptr)) :: fullRun es2 vs

/-- insertScanItem, `/repo/src/rumget.c:2450-2533`: the row with its distances; a full scan never asks for a recheck (`:2321`). -/
def toSort {F : Type} (dist : Item V → List (Option (Option V)) → Nat → F) (p : Item V × List (Option (Option V))) : SortItem F :=
  ⟨p.1.iptr, false, dist p.1 p.2⟩

/-! ### The same scan in natural order -/

/-- The list of one tuple in a pass of a natural-order scan (`setListPositionScanEntry`, C24), and where the pass starts in it: `none` if there is
nothing on this side. -/
def side (cmp : Item V → Item V → Ordering) (fwd : Bool) (m : Item V) (l : List (Item V)) : List (Item V) :=
  if fwd then l.filter (fun y => cmp y m != .lt) else (l.filter (fun y => cmp y m != .gt)).reverse

/-- entryGetNextItemList with a start position, for tuples that all have items on the side of the pass (`/repo/src/rumget.c:1144-1163`). -/
def sideLists (cmp : Item V → Item V → Ordering) (fwd : Bool) (m : Item V) (col : Nat) : List (Tup V) → List (Item V)
  | [] => []
  | t :: ts => if t.col ≠ col then [] else side cmp fwd m t.items ++ sideLists cmp fwd m col ts

/-- One pass of rumgettuple in natural order over a full scan (`/repo/src/rumget.c:2606-2623`): rows are returned as they come. Only for
posting lists, all of them with items on both sides of the start position. -/
def fullPass (cmp : Item V → Item V → Ordering) (fwd : Bool) (m : Item V) (col : Nat) : List (Tup V) → List (Item V)
  | [] => []
  | t :: ts => side cmp fwd m t.items ++ sideLists cmp fwd m col (t :: ts)

end Rum.Full
