import Verif.Codec
import Verif.Order
/-
Posting-tree leaf pages: encoded items plus the 32-slot directory at the end of the page.
-/
namespace Rum.Leaf
open Rum Rum.Codec

/-- `RumDataLeafIndexCount`, /repo/src/rum.h:311. -/
def indexCount : Nat := 32

/-- `RumDataLeafItemIndex`, /repo/src/rum.h:303-309. `offn = 0` is
`InvalidOffsetNumber`. -/
structure IndexEnt where
  iptr : Iptr
  offn : Nat
  pageOff : Nat
  info : Option Datum
deriving DecidableEq, Repr

/-- An unused slot (only `offsetNumer` is set by the code, /repo/src/rumdatapage.c:1371-1374). -/
def invalidEnt : IndexEnt := ⟨⟨0, 0⟩, 0, 0, none⟩

/-- The parts of a leaf data page that matter here: encoded data area, number of items
(`maxoff` of the opaque area) and directory. -/
structure Page where
  data : List Nat
  maxoff : Nat
  index : List IndexEnt

/-- Directory entry made from the previous item, /repo/src/rumdatapage.c:1357-1366. In the
alternative order the NULL flag is put into the offset number. -/
def mkEnt (c : Cfg) (item : Item Datum) (i pageOff : Nat) : IndexEnt :=
  if c.alt then
    ⟨if item.info.isNone then { item.iptr with off := item.iptr.off ||| 0x8000 } else item.iptr, i, pageOff, item.info⟩
  else ⟨item.iptr, i, pageOff, none⟩

/-- The loop of updateItemIndexes, /repo/src/rumdatapage.c:1351-1369. `ents` are the entries
placed so far (`j` is their number); writing past the 32 slots is `none`, like a failed read. -/
def updLoop (c : Cfg) (data : List Nat) (maxoff : Nat) :
    Nat → Nat → Item Datum → Nat → List IndexEnt → Option (List IndexEnt × Nat)
  | 0, _, _, pos, ents => some (ents, pos)
  | fuel + 1, i, item, pos, ents =>
    let place : Bool := i * (indexCount + 1) > (ents.length + 1) * maxoff
    if place ∧ ents.length ≥ indexCount then none
    else
      let ents' := if place then ents ++ [mkEnt c item i pos] else ents
      match readItem c pos item.iptr (data.drop pos) with
      | none => none
      | some (it, rest) => updLoop c data maxoff fuel (i + 1) it (data.length - rest.length) ents'

/-- `RumItemSetMin`, /repo/src/rum.h:178-183. -/
def minItem : Item Datum := ⟨⟨0, 0⟩, none⟩

/-- updateItemIndexes, /repo/src/rumdatapage.c:1336-1387: the new directory and the end of the
used data area (from which `freespace` and `pd_lower` are set). -/
def updateItemIndexes (c : Cfg) (data : List Nat) (maxoff : Nat) : Option (List IndexEnt × Nat) :=
  (updLoop c data maxoff maxoff 1 minItem 0 []).map
    (fun (ents, pos) => (ents ++ List.replicate (indexCount - ents.length) invalidEnt, pos))

/-- convertIndexToKey, /repo/src/rumdatapage.c:507-521. -/
def convertIndexToKey (e : IndexEnt) : Item Datum :=
  if e.iptr.off &&& 0x8000 ≠ 0 then ⟨{ e.iptr with off := e.iptr.off &&& 0x7fff }, none⟩
  else ⟨e.iptr, e.info⟩

/-- Comparison context of a column: encoding, whether this column is the one ordered by
additional info (`attno == attrnAddToColumn`), and the attached column's comparison. -/
structure Ctx where
  cfg : Cfg
  isAddTo : Bool
  cmpV : Datum → Datum → Ordering

/-- compareRumItem in a context, /repo/src/rumdatapage.c:326-360. -/
def Ctx.cmp (x : Ctx) (a b : Item Datum) : Ordering := cmpItem (x.cfg.alt && x.isAddTo) x.cmpV a b

/-- The comparison of a directory entry with the search item, /repo/src/rumdatapage.c:557-572. -/
def cmpEnt (x : Ctx) (e : IndexEnt) (key : Item Datum) : Ordering :=
  if x.cfg.alt then x.cmp (convertIndexToKey e) key else cmpIptr e.iptr key.iptr

/-- Start state of the linear search: (ptr, first, item.iptr, maxoff). -/
structure Range where
  ptr : Nat
  first : Nat
  cur : Iptr
  maxoff : Nat

/-- First loop of findInLeafPage over the directory, /repo/src/rumdatapage.c:550-586. -/
def narrow (x : Ctx) (key : Item Datum) : List IndexEnt → Range → Range
  | [], r => r
  | e :: es, r =>
    if e.offn = 0 then r
    else match cmpEnt x e key with
      | .lt => narrow x key es { r with ptr := e.pageOff, first := e.offn, cur := e.iptr }
      | _ => { r with maxoff := e.offn - 1 }

/-- Result of findInLeafPage: found, `*offset`, `*iptrOut`, `*ptrOut`. -/
structure Found where
  found : Bool
  offset : Nat
  iptr : Iptr
  ptr : Nat

/-- Second loop, /repo/src/rumdatapage.c:588-612; `n` items are left in the range. -/
def search (x : Ctx) (key : Item Datum) (data : List Nat) (pageMax : Nat) :
    Nat → Nat → Iptr → Nat → Option Found
  | 0, _, cur, ptr => some ⟨false, pageMax + 1, cur, ptr⟩
  | n + 1, i, cur, ptr =>
    match readItem x.cfg ptr cur (data.drop ptr) with
    | none => none
    | some (it, rest) =>
      match x.cmp key it with
      | .eq => some ⟨true, i, cur, ptr⟩
      | .lt => some ⟨false, i, cur, ptr⟩
      | .gt => search x key data pageMax n (i + 1) it.iptr (data.length - rest.length)

/-- findInLeafPage, /repo/src/rumdatapage.c:528-613. -/
def findInLeafPage (x : Ctx) (p : Page) (key : Item Datum) : Option Found :=
  let r := narrow x key p.index ⟨0, 1, ⟨0, 0⟩, p.maxoff⟩
  search x key p.data p.maxoff (r.maxoff + 1 - r.first) r.first r.cur r.ptr

/-- The page built for a list of items: encode and build the directory, as every writer of leaf
pages does (createPostingTree /repo/src/ruminsert.c:79-95, dataPlaceToPage, dataSplitPageLeaf,
rumVacuumPostingTreeLeaves). -/
def buildPage (c : Cfg) (its : List (Item Datum)) : Option Page :=
  match placeList c 0 ⟨0, 0⟩ its with
  | none => none
  | some data =>
    match updateItemIndexes c data its.length with
    | none => none
    | some (idx, _) => some ⟨data, its.length, idx⟩

end Rum.Leaf
