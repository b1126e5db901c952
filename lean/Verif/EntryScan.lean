import Verif.ScanPage
/-
Walking the leaf pages of a posting tree in a scan: startScanEntry, setListPositionScanEntry, entryGetNextItem.
The pages are those of one tree at one moment: no concurrent change (see DESIGN.md).
-/
namespace Rum.Leaf
open Rum Rum.Codec

/-- A leaf page of a posting tree with its right bound (`none` on the rightmost page). -/
structure LeafB where
  page : Page
  rb : Option (Item Datum)

/-- State of a scan entry positioned in a posting tree: `entry->buffer`, the pages that follow it in the scan direction,
`entry->list` up to `nlist`, `entry->offset`, `entry->curItem`; /repo/src/rum.h:665-719. -/
structure EntryScan where
  cur : LeafB
  sib : List LeafB
  list : List (Item Datum)
  offset : Int
  item : Item Datum

/-- `entry->scanDirection` as a number. -/
def dirStep (fwd : Bool) : Int := if fwd then 1 else -1

/-- Result of entryGetNextItem: `isFinished`; a new `curItem`; a `curItem` read from outside of the first `nlist` elements
of `entry->list`. -/
inductive Step where
  | finished
  | item (st : EntryScan)
  | invalid

/-- Reading a whole leaf page: the loops /repo/src/rumget.c:667-672 and :994-999. -/
def loadAll (x : Ctx) (p : Page) : Option (List (Item Datum)) :=
  (readList x.cfg 0 ⟨0, 0⟩ p.maxoff p.data).map (·.1)

/-- entryGetNextItem, /repo/src/rumget.c:918-1029, by recursion on the pages still to come. Not modelled: locks and the
case that the page is not a leaf any more (:935). -/
def nextItem (x : Ctx) (fwd : Bool) (sib : List LeafB) (cur : LeafB) (list : List (Item Datum)) (off : Int)
    (it : Item Datum) : Option Step :=
  match (if 0 ≤ off then list[off.toNat]? else none) with
  | some y => some (.item ⟨cur, sib, list, off + dirStep fwd, y⟩)
  | none =>
    match scanPage x cur.page cur.rb ⟨fwd, it, false⟩ with
    | none => none
    | some .invalid => some .invalid
    | some (.hit l i) => l[i]?.map fun y => .item ⟨cur, sib, l, i + dirStep fwd, y⟩
    | some .miss =>
      match sib with
      | [] => some .finished
      | pg :: sib' =>
        match loadAll x pg.page with
        | none => none
        | some l =>
          let search := fwd && it.iptr.off != 0
          match (if search then l.findIdx? (fun y => x.cmp it y == .gt) else none) with
          | some o => l[o]?.map fun y => .item ⟨pg, sib', l, o + dirStep fwd, y⟩
          | none =>
            if search then nextItem x fwd sib' pg l (-1) it
            else match (if fwd then l[0]? else l.getLast?) with
              | none => some .invalid
              | some y => some (.item ⟨pg, sib', l, (if fwd then 0 else (l.length : Int) - 1) + dirStep fwd, y⟩)

/-- The binary search of setListPositionScanEntry, /repo/src/rumget.c:507-521: `inl` the offset of an equal item, `inr` the
final `StopHigh`. `fuel` is the length of the list. -/
def markSearch (x : Ctx) (mark : Item Datum) (l : List (Item Datum)) : Nat → Nat → Nat → Nat ⊕ Nat
  | 0, _, hi => .inr hi
  | fuel + 1, lo, hi =>
    if lo < hi then
      let mid := lo + (hi - lo) / 2
      match (l[mid]?).map (x.cmp mark) with
      | some .lt => markSearch x mark l fuel lo mid
      | some .gt => markSearch x mark l fuel (mid + 1) hi
      | some .eq => .inl mid
      | none => .inr hi
    else .inr hi

/-- setListPositionScanEntry, /repo/src/rumget.c:495-539, called with `entry->offset = 0`: `none` if it returns true
(the entry is finished), else the new offset. -/
def setListPosition (x : Ctx) (fwd : Bool) (mark : Option (Item Datum)) (l : List (Item Datum)) : Option Int :=
  match mark with
  | none => some (if fwd then 0 else (l.length : Int) - 1)
  | some m =>
    match markSearch x m l l.length 0 l.length with
    | .inl o => some o
    | .inr hi =>
      if fwd then (if hi ≥ l.length then none else some hi)
      else if hi = 0 then none else some ((hi : Int) - 1)

/-- The posting-tree part of startScanEntry, /repo/src/rumget.c:637-676, on the leaf page found by rumScanBeginPostingTree.
`junk` is the content of the first element of the freshly allocated `entry->list`, which is what `curItem` becomes if the
page is empty. -/
def startEntry (x : Ctx) (fwd : Bool) (mark : Option (Item Datum)) (cur : LeafB) (sib : List LeafB) (junk : Item Datum) :
    Option Step :=
  match loadAll x cur.page with
  | none => none
  | some l =>
    match setListPosition x fwd mark l with
    | none => some .finished
    | some off =>
      if off < 0 then some .invalid
      else some (.item ⟨cur, sib, l, off, (l[off.toNat]?).getD junk⟩)

/-- How a run of a scan ends: the entry is finished; more items may follow; undefined behaviour (or an undecodable page). -/
inductive End where
  | finished | more | invalid
deriving DecidableEq

/-- The items returned by up to `n` calls of entryGetNextItem, and how the run ends. -/
def drain (x : Ctx) (fwd : Bool) : Nat → EntryScan → List (Item Datum) × End
  | 0, _ => ([], .more)
  | n + 1, st =>
    match nextItem x fwd st.sib st.cur st.list st.offset st.item with
    | some .finished => ([], .finished)
    | some (.item st') => let r := drain x fwd n st'; (st'.item :: r.1, r.2)
    | _ => ([], .invalid)

/-- A whole scan: startScanEntry, then up to `n` calls of entryGetNextItem. The first of these returns again the item that
startScanEntry put into `curItem` (the offset is not advanced, /repo/src/rumget.c:676). -/
def scanAll (x : Ctx) (fwd : Bool) (mark : Option (Item Datum)) (cur : LeafB) (sib : List LeafB) (junk : Item Datum)
    (n : Nat) : List (Item Datum) × End :=
  match startEntry x fwd mark cur sib junk with
  | some .finished => ([], .finished)
  | some (.item st) => drain x fwd n st
  | _ => ([], .invalid)

end Rum.Leaf
