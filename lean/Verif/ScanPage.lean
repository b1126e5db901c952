import Verif.LeafPage
/-
Loading a posting-tree leaf page into a scan entry: scanPage.
-/
namespace Rum.Leaf
open Rum Rum.Codec

/-- Search position and direction of a scan on one page: forward or backward, item searched for, `equalOk`. -/
structure Seek where
  fwd : Bool
  item : Item Datum
  eqOk : Bool

/-- `cmp < 0 || (cmp <= 0 && !equalOk)`, /repo/src/rumget.c:1817, :1839. -/
def Seek.passes (q : Seek) (c : Ordering) : Bool := c == .lt || (c == .eq && !q.eqOk)

/-- The loop over the page's directory, /repo/src/rumget.c:1824-1858. In the backward direction the range is cut at the
*next* directory entry's offset (:1851), whatever it is; an unused entry has offset 0. -/
def narrowScan (x : Ctx) (q : Seek) : List IndexEnt → Range → Range
  | [], r => r
  | e :: es, r =>
    if e.offn = 0 then r
    else if q.passes (cmpEnt x e q.item) then narrowScan x q es { r with ptr := e.pageOff, first := e.offn, cur := e.iptr }
    else if q.fwd then { r with maxoff := e.offn - 1 }
    else match es with
      | [] => r
      | e' :: _ => { r with maxoff := e'.offn }

/-- The reset of an empty backward range, /repo/src/rumget.c:1860-1865. -/
def resetRange (q : Seek) (r : Range) : Range :=
  if !q.fwd && decide (r.first ≥ r.maxoff) then { r with first := 1, cur := ⟨0, 0⟩, ptr := 0 } else r

/-- Result of scanPage: false; true with `entry->list` and the position of `curItem` in it; true with `curItem` read
outside of `entry->list`. After false no caller uses the loaded list: entryGetNextItem and entryFindItem load another
page or finish. -/
inductive PageScan where
  | miss
  | hit (list : List (Item Datum)) (pos : Nat)
  | invalid
deriving DecidableEq

/-- The end of scanPage, /repo/src/rumget.c:1867-1917, on the loaded part of the page. -/
def position (x : Ctx) (q : Seek) (l : List (Item Datum)) : PageScan :=
  match l.findIdx? (fun it => x.cmp q.item it != .gt) with
  | none =>
    if q.fwd then .miss
    else if l.length = 0 then .invalid else .hit l (l.length - 1)
  | some b =>
    let found_eq := l[b]?.any (fun it => x.cmp q.item it == .eq)
    let off : Int :=
      if found_eq then (if q.eqOk then b else if q.fwd then b + 1 else b - 1)
      else if q.fwd then b else b - 1
    if off < 0 ∨ off ≥ l.length then .miss else .hit l off.toNat

/-- scanPage, /repo/src/rumget.c:1797-1918; `rb` is the page's right bound, `none` on a rightmost page. Outer `none`:
the page cannot be decoded. -/
def scanPage (x : Ctx) (p : Page) (rb : Option (Item Datum)) (q : Seek) : Option PageScan :=
  if q.fwd && rb.any (fun b => q.passes (x.cmp b q.item)) then some .miss
  else
    let r := resetRange q (narrowScan x q p.index ⟨0, 1, ⟨0, 0⟩, p.maxoff⟩)
    (readList x.cfg r.ptr r.cur (r.maxoff + 1 - r.first) (p.data.drop r.ptr)).map (fun l => position x q l.1)

end Rum.Leaf
