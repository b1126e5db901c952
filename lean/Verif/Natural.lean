import Verif.Scan
import Verif.EntryScan
import Verif.BtreeOps
/-!
# Scans in the order of the attached column (`naturalOrder`): `/repo/src/rumget.c:2535-2623`, `/repo/src/rumscan.c:485-525`

An index with `order_by_attach` keeps the items of every key of the column `to` ordered by the attached value. `ORDER BY attached <=| q` (left
distance) and `|=>` (right distance) are answered without a sort: the entries start at the value `q` and are scanned in one direction, then
once more in the other.
-/
namespace Rum.Natural
open Rum Rum.Codec Rum.Leaf Rum.Scan Rum.Bt

/-- fillMarkAddInfo, `/repo/src/rumscan.c:485-525`: the start position of the entries. The row pointer is the minimal one
(rumFillScanEntry, `/repo/src/rumscan.c:127`). -/
def markOf (q : Datum) : Item Datum := ⟨⟨0, 0⟩, some q⟩

/-- Directions of the strategies, rum_##type##_config, `/repo/src/btree_rum.c:243-249`, as found by lookupScanDirection,
`/repo/src/rumscan.c:467-483`: `none` for strategies that are not listed (the two-sided distance, which is sorted instead). -/
def direction : DStrategy → Option Bool
  | .left => some false
  | .right => some true
  | .both => none

/-- Where the items of a scan entry are stored: a posting list in the entry tuple, or the leaf pages of a posting tree, from left to right; or, for a
partial match (a prefix, a range), the sort that collectMatchBitmap filled: `collected` with the items that entryGetItem makes of it (`drainSort`). -/
inductive Source where
  | list (l : List (Item Datum))
  | tree (pages : List LeafB)
  | collected (l : List (Item Datum))

/-- The leaf found for an item: the first one whose right bound is not before the item. Summarises rumFindLeafPage
(`/repo/src/rumbtree.c:120-203`) on the leaf level; that the descent ends there is part of C10 and C17. Result: the pages to the left, from
the page leftwards; the page; the pages to the right. -/
def findLeaf {α : Type} (past : α → Bool) : List α → List α → Option (List α × α × List α)
  | _, [] => none
  | left, g :: gs => if past g then findLeaf past (g :: left) gs else some (left, g, gs)

/-- dataIsMoveRight, `/repo/src/rumdatapage.c:414-428`. -/
def pastLeaf (x : Ctx) (m : Item Datum) (g : LeafB) : Bool :=
  match g.rb with
  | none => false
  | some b => x.cmp m b == .gt

/-- The posting-list part of entryGetItem, `/repo/src/rumget.c:1329-1346`, called repeatedly. -/
def drainList (l : List (Item Datum)) (fwd : Bool) : Nat → Int → List (Item Datum)
  | 0, _ => []
  | n + 1, off =>
    match (if 0 ≤ off then l[off.toNat]? else none) with
    | some y => y :: drainList l fwd n (off + dirStep fwd)
    | none => []

/-- What an entry delivers in one pass: startScanEntry (`/repo/src/rumget.c:621-697`) and entryGetItem. `junk`: see `startEntry`. For a partial match the
mark is not used, and the sort is read in the direction of the entry (`/repo/src/rumget.c:1232-1235`) from its beginning: backwards there is nothing
(`/repo/src/tuplesort15.c:2338-2341`; a build with assertions stops at `/repo/src/rumget.c:1207`). Simplified: the sort is in memory. -/
def passStream (x : Ctx) (fwd : Bool) (m junk : Item Datum) : Source → List (Item Datum)
  | .list l =>
    match setListPosition x fwd (some m) l with
    | none => []
    | some off => drainList l fwd (l.length + 1) off
  | .tree pages =>
    match findLeaf (pastLeaf x m) [] pages with
    | none => []
    | some (left, g, right) =>
      (scanAll x fwd (some m) g (if fwd then right else left) junk ((pages.map (fun g => g.page.maxoff)).sum + 1)).1
  | .collected l => if fwd then l else []

/-- A filter key on the column `to`: its consistency function and its entries. -/
structure NatKey where
  cons : List (Option (Option Datum)) → Bool × Bool
  sources : List Source

/-- The keys of one pass. The ORDER BY key has no entries (`/repo/src/rumscan.c:222-233`). -/
def passKeys (x : Ctx) (fwd : Bool) (m junk : Item Datum) (keys : List NatKey) : List (KeySpec Datum) :=
  keys.map (fun k => ⟨false, true, k.cons, k.sources.map (passStream x fwd m junk)⟩) ++ [⟨true, true, fun _ => (true, false), []⟩]

/-- compareRumItemScanDirection, `/repo/src/rumget.c:1385-1395`. -/
def dirCmp (x : Ctx) (fwd : Bool) (a b : Item Datum) : Ordering := if fwd then x.cmp a b else x.cmp b a

/-- One pass of up to `n` rows. -/
def pass (x : Ctx) (fwd : Bool) (m junk : Item Datum) (keys : List NatKey) (n : Nat) : List (Item Datum × Bool) × Bool :=
  regularScan ⟨dirCmp x fwd, dirCmp x fwd⟩ true (passKeys x fwd m junk keys) n

/-- rumgettuple in natural order, `/repo/src/rumget.c:2606-2625`: the rows of the first pass, then (reverseScan,
`/repo/src/rumget.c:2535-2559`) those of a pass in the other direction. Second component: both passes came to an end. -/
def naturalScan (x : Ctx) (fwd : Bool) (q : Datum) (junk : Item Datum) (keys : List NatKey) (n : Nat) : List (Item Datum × Bool) × Bool :=
  let a := pass x fwd (markOf q) junk keys n
  let b := pass x (!fwd) (markOf q) junk keys n
  (a.1 ++ b.1, a.2 && b.2)

end Rum.Natural
