import Verif.LeafPage
import Verif.VacuumList
/-
Changing posting-tree leaf pages: placing new items (dataPlaceToPage) and splitting (dataSplitPageLeaf).
-/
namespace Rum.Leaf
open Rum Rum.Codec

/-! ### dataPlaceToPage -/

/-- Variables of the merge loop of dataPlaceToPage: bytes of the page written so far (`ptr` is its end), `iptr`,
`freespace`, `stopAppend`, `insertCount`. -/
structure MergeSt where
  out : List Nat
  iptr : Iptr
  free : Nat
  stop : Bool
  ins : Nat

/-- Copying an old item back, /repo/src/rumdatapage.c:945-956. -/
def copyOld (c : Cfg) (s : MergeSt) (o : Item Datum) : Option MergeSt :=
  (placeItem c s.out.length o s.iptr).map (fun b => { s with out := s.out ++ b, iptr := o.iptr })

/-- `newItemSize`, /repo/src/rumdatapage.c:960-971: the size at the current alignment (`MAXALIGN` is 8; the data area
starts at an aligned address). -/
def newItemSize (c : Cfg) (s : MergeSt) (n : Item Datum) : Nat :=
  checkPlace c n s.iptr (s.out.length % 8) - s.out.length % 8

/-- Writing a new item, /repo/src/rumdatapage.c:973-983. -/
def insertNew (c : Cfg) (s : MergeSt) (n : Item Datum) : Option MergeSt :=
  (placeItem c s.out.length n s.iptr).map (fun b =>
    { s with out := s.out ++ b, iptr := n.iptr, free := s.free - newItemSize c s n, ins := s.ins + 1 })

/-- The merge loop `while(42)`, /repo/src/rumdatapage.c:893-993. `rb` is the page's right bound, `none` on a rightmost
page. The old items from the insertion point on are given as a list (the code decodes them from `pageCopy` one by one).
Returns the final state and the new items not placed. -/
def mergeLoop (x : Ctx) (rb : Option (Item Datum)) :
    List (Item Datum) → List (Item Datum) → MergeSt → Option (MergeSt × List (Item Datum))
  | o :: os, n :: ns, s =>
    if s.stop then (copyOld x.cfg s o).bind (fun s' => mergeLoop x rb os (n :: ns) s')
    else match x.cmp o n with
      | .lt => (copyOld x.cfg s o).bind (fun s' => mergeLoop x rb os (n :: ns) s')
      | .eq => (copyOld x.cfg s o).bind (fun s' => mergeLoop x rb os ns s')
      | .gt =>
        if newItemSize x.cfg s n ≤ s.free then (insertNew x.cfg s n).bind (fun s' => mergeLoop x rb (o :: os) ns s')
        else (copyOld x.cfg { s with stop := true } o).bind (fun s' => mergeLoop x rb os (n :: ns) s')
  | [], n :: ns, s =>
    if s.stop then some (s, n :: ns)
    else if rb.all (fun b => x.cmp b n != .lt) then
      if newItemSize x.cfg s n ≤ s.free then (insertNew x.cfg s n).bind (fun s' => mergeLoop x rb [] ns s')
      else some ({ s with stop := true }, n :: ns)
    else some (s, n :: ns)
  | o :: os, [], s => (copyOld x.cfg s o).bind (fun s' => mergeLoop x rb os [] s')
  | [], [], s => some (s, [])
termination_by os ns => os.length + ns.length

/-- dataIsEnoughSpace for a leaf page, /repo/src/rumdatapage.c:781-808, with `cap = RumDataPageSize`; `freespace` of the
page is `cap` minus the used bytes (updateItemIndexes, /repo/src/rumdatapage.c:1376). -/
def leafEnoughSpace (c : Cfg) (cap : Nat) (p : Page) (n : Item Datum) : Bool :=
  checkPlace c n ⟨0, 0⟩ 0 + 8 ≤ cap - p.data.length

/-- dataPlaceToPage on a leaf page, /repo/src/rumdatapage.c:842-999: the new page and the items not placed. -/
def placeToLeaf (x : Ctx) (cap : Nat) (p : Page) (rb : Option (Item Datum)) (items : List (Item Datum)) :
    Option (Page × List (Item Datum)) :=
  match items with
  | [] => none
  | key :: _ =>
    match findInLeafPage x p key with
    | none => none
    | some f =>
      match readList x.cfg f.ptr f.iptr (p.maxoff + 1 - f.offset) (p.data.drop f.ptr) with
      | none => none
      | some (old, _) =>
        match mergeLoop x rb old items ⟨p.data.take f.ptr, f.iptr, cap - p.data.length, false, 0⟩ with
        | none => none
        | some (s, rest) =>
          match updateItemIndexes x.cfg s.out (p.maxoff + s.ins) with
          | none => none
          | some (idx, _) => some (⟨s.out, p.maxoff + s.ins, idx⟩, rest)

/-! ### dataSplitPageLeaf -/

/-- First loop: total size of the items and size of the greatest one, /repo/src/rumdatapage.c:1084-1112. -/
def sizeLoop (c : Cfg) (prev : Iptr) (total maxItem : Nat) : List (Item Datum) → Nat × Nat
  | [] => (total, maxItem)
  | it :: its =>
    let t := checkPlace c it prev total
    sizeLoop c it.iptr t (max maxItem (t - total)) its

/-- The `while` loop that finds how many new items are appended, /repo/src/rumdatapage.c:1126-1139: returns the number
of items taken and the total size. -/
def appendLoop (c : Cfg) (cap : Nat) (prev : Iptr) (total maxItem : Nat) : List (Item Datum) → Nat × Nat
  | [] => (0, total)
  | it :: its =>
    let t := checkPlace c it prev total
    if t + 2 * maxItem + 16 < 2 * cap then
      let r := appendLoop c cap it.iptr t (max maxItem (t - total)) its
      (r.1 + 1, r.2)
    else (0, total)

/-- First loop when an item is inserted before old item `off`, /repo/src/rumdatapage.c:1084-1112. The code sets `item`
to the new item (:1091) and then reads the next old item as a delta to it (:1102), so the old items behind are counted
with the same block deltas they have on the old page (in additional-info order there are no deltas). -/
def sizeInsert (c : Cfg) (before : List (Item Datum)) (n : Item Datum) (behind : List (Item Datum)) : Nat :=
  let s := sizeLoop c ⟨0, 0⟩ 0 0 before
  let t := checkPlace c n (lastIptr ⟨0, 0⟩ before) s.1
  (sizeLoop c (lastIptr ⟨0, 0⟩ before) t (max s.2 (t - s.1)) behind).1

/-- Second loop: placing the items, switching to the right page as soon as more than half of the total size is used
(CHECK_SWITCH_TO_RPAGE), /repo/src/rumdatapage.c:1018-1034, 1148-1202. `done` are the items placed on the left page. The
result is the two item lists and the bytes of both pages. -/
def splitLoop (c : Cfg) (total : Nat) : List (Item Datum) → List Nat → Iptr → List (Item Datum) →
    Option (List (Item Datum) × List (Item Datum) × List Nat × List Nat)
  | done, out, _, [] => some (done, [], out, [])
  | done, out, prev, it :: its =>
    match placeItem c out.length it prev with
    | none => none
    | some b =>
      let out' := out ++ b
      if out'.length > total / 2 then
        match placeList c 0 ⟨0, 0⟩ its with
        | none => none
        | some r => some (done ++ [it], its, out', r)
      else splitLoop c total (done ++ [it]) out' it.iptr its

/-- Result of a leaf split: the two pages, the greatest item of the left page (`maxLeftItem`: the left page's right
bound and the key of its downlink), and the new items not placed. The right page keeps the old right bound. -/
structure Split where
  left : Page
  right : Page
  leftItems : List (Item Datum)
  rightItems : List (Item Datum)
  bound : Item Datum
  rest : List (Item Datum)

/-- The sizing part of dataSplitPageLeaf, /repo/src/rumdatapage.c:1081-1146: how many new items are taken
(`maxItemIndex - curitem`) and `totalsize`. The test `RumPageRightMost(newlPage)` (:1120) reads the page after
RumInitPage has cleared its right link (:1079, /repo/src/rumutil.c:574-592), so it is always true and the whole batch is
considered whatever the page's position. -/
def splitSizes (c : Cfg) (cap : Nat) (old : List (Item Datum)) (off : Nat) (items : List (Item Datum)) : Nat × Nat :=
  if off ≤ old.length then
    match items with
    | [] => (0, 0)
    | n :: _ => (1, sizeInsert c (old.take (off - 1)) n (old.drop (off - 1)))
  else
    let sz := sizeLoop c ⟨0, 0⟩ 0 0 old
    appendLoop c cap (lastIptr ⟨0, 0⟩ old) sz.1 sz.2 items

/-- dataSplitPageLeaf, /repo/src/rumdatapage.c:1044-1223, for insertion offset `off` (1-based) on a page holding `old`. -/
def splitLeaf (c : Cfg) (cap : Nat) (old : List (Item Datum)) (off : Nat) (items : List (Item Datum)) : Option Split :=
  let k := splitSizes c cap old off items
  match splitLoop c k.2 [] [] ⟨0, 0⟩ (old.take (off - 1) ++ items.take k.1 ++ old.drop (off - 1)) with
  | none => none
  | some (l, r, bl, br) =>
    match updateItemIndexes c bl l.length, updateItemIndexes c br r.length, l.getLast? with
    | some (il, _), some (ir, _), some m => some ⟨⟨bl, l.length, il⟩, ⟨br, r.length, ir⟩, l, r, m, items.drop k.1⟩
    | _, _, _ => none

end Rum.Leaf
