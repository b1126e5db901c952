import Verif.Order
import Verif.Sorted
/-!
# Model of index scans: entries, keys, the regular scan (`/repo/src/rumget.c:1197-1791`)

An entry delivers the items stored in the index under its key one by one. How it gets them out of posting lists, posting
trees and the partial-match sort is the subject of `EntryScan`, `ScanPage` and `Sort`; here an entry is the list of the
items still to come. `RumFuzzySearchLimit` (random dropping of results, `reduceResult`) is off.
-/
namespace Rum.Scan
open Std

variable {V : Type}

/-- A scan entry (RumScanEntryData, `/repo/src/rum.h:665-718`): `curItem`, the items still to come, `isFinished`. `stream`
never changes: all items of the entry in scan order, as a reference for the specification. -/
structure Ent (V : Type) where
  stream : List (Item V)
  cur : Item V
  rest : List (Item V)
  fin : Bool

/-- entryGetItem, `/repo/src/rumget.c:1197-1369` (called on unfinished entries only). -/
def Ent.get (e : Ent V) : Ent V :=
  match e.rest with
  | [] => { e with fin := true }
  | x :: r => { e with cur := x, rest := r }

/-- A scan key (RumScanKeyData, `/repo/src/rum.h:604-663`). `alt`: the key's column is the one that stores (and, with
`order_by_attach`, is ordered by) the attached column's value. `cons` is callConsistentFn (`/repo/src/rumget.c:144-186`): from
the entries that hold the row, with their additional info, to match and recheck flag. -/
structure Key (V : Type) where
  orderBy : Bool
  alt : Bool
  cons : List (Option (Option V)) → Bool × Bool
  ents : List (Ent V)
  cur : Item V
  isMatch : Bool
  recheck : Bool
  fin : Bool

/-- `if (!inited || cmp(x, min) < 0) min = x`, `/repo/src/rumget.c:1441-1446`. -/
def least (cmp : Item V → Item V → Ordering) (acc : Option (Item V)) (x : Item V) : Option (Item V) :=
  match acc with
  | none => some x
  | some m => if cmp x m = .lt then some x else some m

/-- The smallest current item of the unfinished entries, `/repo/src/rumget.c:1433-1447`. -/
def minCur (cmp : Item V → Item V → Ordering) (ents : List (Ent V)) : Option (Item V) :=
  ents.foldl (fun acc e => if !e.fin then least cmp acc e.cur else acc) none

/-- The `entryRes` and `addInfo` arrays, `/repo/src/rumget.c:1473-1489`. -/
def entryRes (tid : Iptr) (ents : List (Ent V)) : List (Option (Option V)) :=
  ents.map (fun e => if !e.fin && cmpIptr e.cur.iptr tid == .eq then some e.cur.info else none)

/-- keyGetItem, `/repo/src/rumget.c:1416-1498`. -/
def keyGetItem (cmp : Item V → Item V → Ordering) (k : Key V) : Key V :=
  match minCur cmp k.ents with
  | none => { k with fin := true }
  | some m =>
    if cmpIptr k.cur.iptr m.iptr = .eq then k
    else
      let r := k.cons (entryRes m.iptr k.ents)
      { k with cur := m, isMatch := r.1, recheck := r.2 }

/-- The inner `while` that moves an entry past `adv`, `/repo/src/rumget.c:1642-1652`. -/
def pastLoop (cmp : Item V → Item V → Ordering) (adv : Item V) (stream : List (Item V)) :
    Item V → List (Item V) → Ent V
  | cur, [] => if cmp cur adv = .gt then ⟨stream, cur, [], false⟩ else ⟨stream, cur, [], true⟩
  | cur, x :: r => if cmp cur adv = .gt then ⟨stream, cur, x :: r, false⟩ else pastLoop cmp adv stream x r

/-- Advancing one entry, `/repo/src/rumget.c:1642-1652`; an item pointer with offset 0 is invalid. -/
def advance (cmp : Item V → Item V → Ordering) (adv : Item V) (e : Ent V) : Ent V :=
  if e.fin then e
  else if adv.iptr.off = 0 then e.get
  else pastLoop cmp adv e.stream e.cur e.rest

/-- The scan (RumScanOpaqueData, `/repo/src/rum.h:720-790`): keys, `scanWithAltOrderKeys`, and the rows of the bitmap `tbm`. The
bitmap is a plain set here: that the real one is exact until it runs out of memory is C39. -/
structure ScanSt (V : Type) where
  keys : List (Key V)
  altMode : Bool
  tbm : List Iptr

/-- Keys whose entries take part in the main loop, `/repo/src/rumget.c:1638-1640`. -/
def visible (altMode : Bool) (k : Key V) : Bool := !altMode || k.alt

/-- Keys that filter in the main loop, `/repo/src/rumget.c:1683-1685`. -/
def active (altMode : Bool) (k : Key V) : Bool := !k.orderBy && visible altMode k

/-- Comparisons: `item` is compareRumItem in the scan's direction (the keys that filter in the main loop all have the same
direction, adjustScanDirection `/repo/src/rumscan.c:528-562`); `order` the one used for entries of ORDER BY keys. -/
structure Cmp (V : Type) where
  item : Item V → Item V → Ordering
  order : Item V → Item V → Ordering

/-- First part of the loop body: advancing the entries, `/repo/src/rumget.c:1622-1656`. -/
def advKey (c : Cmp V) (altMode : Bool) (adv : Item V) (k : Key V) : Key V :=
  if visible altMode k then
    { k with ents := k.ents.map (advance (if k.orderBy then c.order else c.item) adv) }
  else k

/-- Second part: the current item of the filtering keys, `/repo/src/rumget.c:1671-1691`. -/
def nextKey (c : Cmp V) (altMode : Bool) (k : Key V) : Key V :=
  if active altMode k then keyGetItem c.item k else k

/-- The smallest current item of the filtering keys, `/repo/src/rumget.c:1693-1704`. -/
def minKey (cmp : Item V → Item V → Ordering) (altMode : Bool) (keys : List (Key V)) : Option (Item V) :=
  keys.foldl (fun acc k => if active altMode k then least cmp acc k.cur else acc) none

/-- The match test, `/repo/src/rumget.c:1711-1742`. -/
def matchAll (s : ScanSt V) (keys : List (Key V)) (item : Item V) : Bool :=
  keys.all (fun k => !active s.altMode k || (k.isMatch && cmpIptr item.iptr k.cur.iptr == .eq)) &&
  (!s.altMode || s.tbm.contains item.iptr)

/-- The `while` that catches an ORDER BY entry up with the item, `/repo/src/rumget.c:1766-1776`. -/
def catchLoop (cmp : Item V → Item V → Ordering) (item : Item V) (stream : List (Item V)) :
    Item V → List (Item V) → Ent V
  | cur, [] => if cmp cur item = .lt then ⟨stream, cur, [], true⟩ else ⟨stream, cur, [], false⟩
  | cur, x :: r => if cmp cur item = .lt then catchLoop cmp item stream x r else ⟨stream, cur, x :: r, false⟩

def catchUp (cmp : Item V → Item V → Ordering) (item : Item V) (e : Ent V) : Ent V :=
  if e.fin then e else catchLoop cmp item e.stream e.cur e.rest

/-- The last loop of scanGetItemRegular, `/repo/src/rumget.c:1757-1784`: it stops at the first filtering key that asks for a
recheck, and ORDER BY keys behind that one are not caught up. -/
def finishKeys (cmp : Item V → Item V → Ordering) (item : Item V) : List (Key V) → Bool × List (Key V)
  | [] => (false, [])
  | k :: ks =>
    if k.orderBy then
      let r := finishKeys cmp item ks
      (r.1, { k with ents := k.ents.map (catchUp cmp item) } :: r.2)
    else if k.recheck then (true, k :: ks)
    else
      let r := finishKeys cmp item ks
      (r.1, k :: r.2)

/-- Result of a call: no more rows; a row with its recheck flag and the new state; the bound on the number of iterations was
too small. -/
inductive Res (V : Type) where
  | done
  | found (item : Item V) (recheck : Bool) (s : ScanSt V)
  | stuck

/-- The main loop of scanGetItemRegular, `/repo/src/rumget.c:1620-1752`. `item` and `advancePast` are the same variable in all
callers, so that an item that no key sets keeps the value of `adv`. -/
def regLoop (c : Cmp V) : Nat → ScanSt V → Item V → Res V
  | 0, _, _ => .stuck
  | n + 1, s, adv =>
    let keys1 := s.keys.map (advKey c s.altMode adv)
    if keys1.all (fun k => !visible s.altMode k || k.ents.all (·.fin)) then .done
    else
      let keys2 := keys1.map (nextKey c s.altMode)
      if keys2.any (fun k => active s.altMode k && k.fin) then .done
      else
        let item := (minKey c.item s.altMode keys2).getD adv
        if matchAll s keys2 item then
          let r := finishKeys c.order item keys2
          .found item r.1 { s with keys := r.2 }
        else regLoop c n { s with keys := keys2 } item

/-- collectAllCurItemsToBitmap, `/repo/src/rumget.c:1504-1556`, on a key ordered by row pointer: the rows added and the key
afterwards. -/
def collectLoop : Nat → Key V → Iptr → List Iptr × Key V
  | 0, k, _ => ([], k)
  | n + 1, k, adv =>
    let cmp : Item V → Item V → Ordering := fun a b => cmpIptr a.iptr b.iptr
    let k1 := keyGetItem cmp { k with ents := k.ents.map (advance cmp ⟨adv, none⟩) }
    if k1.fin then ([], k1)
    else
      let r := collectLoop n k1 k1.cur.iptr
      (if k1.isMatch then k1.cur.iptr :: r.1 else r.1, r.2)

/-- Number of items an entry can still deliver, plus one (a bound on loop iterations). -/
def Ent.left (e : Ent V) : Nat := if e.fin then 0 else e.rest.length + 1

def keyLeft (k : Key V) : Nat := (k.ents.map Ent.left).sum

/-- The preparation loop over the keys ordered by row pointer, `/repo/src/rumget.c:1589-1618`: `first` until the bitmap is set. -/
def prepKeys : Bool → List Iptr → List (Key V) → List Iptr × List (Key V)
  | _, tbm, [] => (tbm, [])
  | first, tbm, k :: ks =>
    if k.orderBy || k.alt then
      let r := prepKeys first tbm ks
      (r.1, k :: r.2)
    else
      let c := collectLoop (keyLeft k + 1) k ⟨0, 0⟩
      let tbm' := if first then tbm ++ c.1 else tbm.filter (fun t => c.1.contains t)
      let r := prepKeys false tbm' ks
      (r.1, c.2 :: r.2)

/-- scanGetItemRegular, `/repo/src/rumget.c:1571-1791`. -/
def scanGetItemRegular (c : Cmp V) (s : ScanSt V) (adv : Item V) : Res V :=
  let s := if s.altMode && adv.iptr.off == 0 then
      let r := prepKeys true s.tbm s.keys
      { s with keys := r.2, tbm := r.1 }
    else s
  regLoop c ((s.keys.map keyLeft).sum + 2) s adv

/-- Up to `n` calls of scanGetItem, as rumgetbitmap (`/repo/src/rumget.c:2360-2371`) and rumgettuple (:2596-2599) make them: the rows
with their recheck flags, and whether the scan ended. -/
def run (c : Cmp V) : Nat → ScanSt V → Item V → List (Item V × Bool) × Bool
  | 0, _, _ => ([], false)
  | n + 1, s, adv =>
    match scanGetItemRegular c s adv with
    | .done => ([], true)
    | .stuck => ([], false)
    | .found it r s' => let o := run c n s' it; ((it, r) :: o.1, o.2)

/-- What keyGetOrdering (`/repo/src/rumget.c:2419-2434`) hands to the distance function of each ORDER BY key for the row just
returned: per entry, whether it stands at the row, and the additional info found there. -/
def orderViews (keys : List (Key V)) (tid : Iptr) : List (List (Option (Option V))) :=
  (keys.filter (·.orderBy)).map (fun k => entryRes tid k.ents)

/-- `run` with the arguments of the distance functions recorded for every row (insertScanItem, `/repo/src/rumget.c:2450-2533`, called
right after the row was found). -/
def runViews (c : Cmp V) : Nat → ScanSt V → Item V → List (Item V × Bool × List (List (Option (Option V))))
  | 0, _, _ => []
  | n + 1, s, adv =>
    match scanGetItemRegular c s adv with
    | .done => []
    | .stuck => []
    | .found it r s' => (it, r, orderViews s'.keys it.iptr) :: runViews c n s' it

/-- isScanWithAltOrderKeys, `/repo/src/rumget.c:769-790`; `alternative` is `useAlternativeOrder`. -/
def isScanWithAltOrderKeys (alternative : Bool) (keys : List (Key V)) : Bool :=
  if keys.length = 1 then false
  else keys.any (fun k => alternative && k.alt) && keys.any (fun k => !(alternative && k.alt))

/-- State of an entry after startScanEntry: finished if the key is not in the index, else all items to come (`curItem` may already
be the first one; the first entryGetItem returns it again). -/
def Ent.start (stream : List (Item V)) (cur : Item V) : Ent V := ⟨stream, cur, stream, stream.isEmpty⟩

/-- What a user gives: per key, ORDER BY or filter, column kind, consistency function, and the items stored under its entries. -/
structure KeySpec (V : Type) where
  orderBy : Bool
  alt : Bool
  cons : List (Option (Option V)) → Bool × Bool
  streams : List (List (Item V))

/-- startScan, `/repo/src/rumget.c:793-850`: keys with a minimal current item, the mixed-order flag, an empty bitmap. -/
def startKey (k : KeySpec V) : Key V :=
  ⟨k.orderBy, k.alt, k.cons, k.streams.map (fun st => Ent.start st ⟨⟨0, 0⟩, none⟩), ⟨⟨0, 0⟩, none⟩, false, false, false⟩

def startScan (alternative : Bool) (keys : List (KeySpec V)) : ScanSt V :=
  ⟨keys.map startKey, isScanWithAltOrderKeys alternative (keys.map startKey), []⟩

/-- The rows a regular scan returns in up to `n` calls. -/
def regularScan (c : Cmp V) (alternative : Bool) (keys : List (KeySpec V)) (n : Nat) : List (Item V × Bool) × Bool :=
  run c n (startScan alternative keys) ⟨⟨0, 0⟩, none⟩

end Rum.Scan
