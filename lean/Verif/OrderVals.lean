import Verif.ScanKeys
import Verif.Sort
/-!
# The ORDER BY values recorded for a row (`/repo/src/rumget.c`: insertScanItem, keyGetOrdering)

Works on the plan made by rumNewScanKey (`ScanKeys.lean`). The scan is positioned on a row that all filter keys accept.
-/
namespace Rum.OrderVals
open Rum.ScanKeys Rum.Sort

variable {Q K X V D : Type}

/-- The distance functions of the operator classes: outerOrderingFn of the attached column, orderingFn with three arguments (by key value), orderingFn
with ten arguments (by the entries of the query), infinity; and what freshly zeroed memory (`palloc0`, `/repo/src/rumscan.c:145`) reads as. -/
structure Dists (Q K X V D : Type) where
  outer : Option K → V → Nat → D
  byKey : Nat → K → Option Q → Nat → D
  own : Core Q K X → List (Option (Option V)) → D
  inf : D
  zeroV : V
  zeroK : K

/-- The index contents of one row: what the filter functions see, and for an entry on which the scan stands, the key value of the index tuple
(`none`: not a normal key). -/
structure RowWorld (Q K X V : Type) where
  world : World Q K X V
  cur : ECore K X → Option K

/-- The mutable part of a scan key: `outerAddInfo` (`none`: outerAddInfoIsNull) and `curKey` (`none`: curKeyCategory is not normal). -/
structure SKey (Q K X V : Type) where
  key : Key Q K X
  outer : Option V
  cur : Option K

/-- State of a key when insertScanItem starts, after the reset of `/repo/src/rumget.c:2470-2479`. For a filter key on the column that gets the
attached values, callAddInfoConsistentFn (`/repo/src/rumget.c:76-106`) has set `outerAddInfo`; every other key still has the zeroes it was
allocated with. -/
def start (c : Cfg) (d : Dists Q K X V D) (w : RowWorld Q K X V) (p : PKey Q K X) : SKey Q K X V where
  key := p.key
  outer :=
    if p.key.useAddTo = true then none
    else if p.key.orderBy = false ∧ p.key.col = c.addTo then
      if p.subs.isNone = true ∧ p.key.willSort = false then none else outerInfo w.world p.key.entries
    else some d.zeroV
  cur := some d.zeroK

/-- The inner loop that copies the attached value, `/repo/src/rumget.c:2491-2501`. -/
def giveOuter (v : Option V) (s : SKey Q K X V) : SKey Q K X V :=
  if s.key.useAddTo = true ∧ s.outer.isNone = true then { s with outer := v } else s

/-- The inner loop that copies the key value, `/repo/src/rumget.c:2507-2516`. -/
def giveCur (x : Option K) (s : SKey Q K X V) : SKey Q K X V :=
  if s.key.useCurKey = true then { s with cur := x } else s

/-- `scanEntry[0]->useCurKey`, false without entries. -/
def headFlag (k : Key Q K X) : Bool := (k.entries.head?.map (·.useCurKey)).getD false

/-- `scanEntry[0]->curKey`. -/
def headCur (w : RowWorld Q K X V) (k : Key Q K X) : Option K := (k.entries.head?.bind (fun e => w.cur e.core))

/-- The loop over the keys, `/repo/src/rumget.c:2481-2518`; `fuel` is the number of keys left. -/
def spread (c : Cfg) (w : RowWorld Q K X V) (nA nK : Nat) : Nat → Nat → Nat → List (SKey Q K X V) → List (SKey Q K X V)
  | 0, _, _, l => l
  | _ + 1, _, _, [] => []
  | n + 1, cA, cK, s :: rest =>
    if cA < nA ∨ cK < nK then
      if cA < nA ∧ s.key.col = c.addTo ∧ s.outer.isSome = true then
        s :: spread c w nA nK n (cA + rest.countP (fun r => r.key.useAddTo && r.outer.isNone)) cK (rest.map (giveOuter s.outer))
      else if cK < nK ∧ headFlag s.key = true then
        s :: spread c w nA nK n cA (cK + rest.countP (fun r => r.key.useCurKey)) (rest.map (giveCur (headCur w s.key)))
      else s :: spread c w nA nK n cA cK rest
    else s :: rest

/-- keyGetOrdering, `/repo/src/rumget.c:2379-2447`. -/
def keyOrdering (d : Dists Q K X V D) (w : RowWorld Q K X V) (s : SKey Q K X V) : D :=
  if s.key.useAddTo = true then
    match s.outer with
    | none => d.inf
    | some v => d.outer (s.key.core.vals.head?.map (·.1)) v s.key.core.strategy
  else if s.key.useCurKey = true then
    match s.cur with
    | none => d.inf
    | some x => d.byKey s.key.col x s.key.core.query s.key.core.strategy
  else d.own s.key.core (s.key.entries.map (fun e => w.world.found e.core))

/-- The distances insertScanItem hands to the sort, `/repo/src/rumget.c:2450-2533`. -/
def recorded (c : Cfg) (d : Dists Q K X V D) (w : RowWorld Q K X V) (p : Plan Q K X) : List D :=
  let ss := p.keys.map (start c d w)
  let nA := ss.countP (fun s => s.key.useAddTo)
  let nK := ss.countP (fun s => !s.key.useAddTo && s.key.useCurKey)
  let ss' := if c.addTo ≠ 0 ∨ p.willSort = true then spread c w nA nK ss.length 0 0 ss else ss
  (ss'.filter (fun s => s.key.orderBy)).map (keyOrdering d w)

/-- The item put into the sort: allocated with zeroes for all ORDER BY operators, the recorded values first, `/repo/src/rumget.c:2457-2461` and
`2520-2532`. -/
def sortItem (c : Cfg) (d : Dists Q K X V D) (zero : D) (p : Plan Q K X) (w : RowWorld Q K X V) (tid : Iptr) (recheck : Bool) : SortItem D :=
  ⟨tid, recheck, fun i => (recorded c d w p).getD i zero⟩

/-- rumgettuple, `/repo/src/rumget.c:2586-2665`: with a natural order the rows come as the scan finds them (the ORDER BY values are not looked at),
otherwise they are sorted by the recorded values. `sort` is the tuple sort. -/
def delivered {R : Type} (c : Cfg) (d : Dists Q K X V D) (p : Plan Q K X) (world : R → RowWorld Q K X V) (sort : (R → List D) → List R → List R) (scanned : List R) :
    List R :=
  if p.natural ≠ 0 then scanned else sort (fun r => recorded c d (world r) p) scanned

end Rum.OrderVals
