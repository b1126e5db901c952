import Verif.Tree
import Verif.DataPage
/-!
# Posting trees: the B-tree of `Tree` with the byte-level methods of data pages

rumPrepareDataScan, `/repo/src/rumdatapage.c:1463-1492`, sets the method table.
-/
namespace Rum.Tree
open Rum Rum.Codec Rum.Leaf Rum.Entry

/-- The items read back from the bytes of a leaf page, as every reader does (`/repo/src/rum.h:977-1056`). -/
def decodePage (c : Cfg) (p : Leaf.Page) : List (Item Datum) :=
  match readList c 0 ⟨0, 0⟩ p.maxoff p.data with
  | some (its, _) => its
  | none => []

/-- findItem: findInLeafPage on the encoded page, `/repo/src/rumdatapage.c:528-640`. -/
def dataFound (x : Ctx) (its : List (Item Datum)) (key : Item Datum) : Bool :=
  match buildPage x.cfg its with
  | some p => (findInLeafPage x p key).any Found.found
  | none => false

/-- isEnoughSpace on a leaf, `/repo/src/rumdatapage.c:781-804`. -/
def dataRoomLeaf (x : Ctx) (cap : Nat) (its batch : List (Item Datum)) : Bool :=
  match buildPage x.cfg its, batch with
  | some p, n :: _ => leafEnoughSpace x.cfg cap p n
  | _, _ => false

/-- placeToPage on a leaf, `/repo/src/rumdatapage.c:842-999`: the items of the new page, read back from its bytes, and the rest of the batch. -/
def dataPlace (x : Ctx) (cap : Nat) (its : List (Item Datum)) (rb : Option (Item Datum)) (batch : List (Item Datum)) :
    List (Item Datum) × List (Item Datum) :=
  match buildPage x.cfg its with
  | some p => match placeToLeaf x cap p rb batch with
    | some (p', rest) => (decodePage x.cfg p', rest)
    | none => (its, batch)
  | none => (its, batch)

/-- splitPage on a leaf, `/repo/src/rumdatapage.c:1044-1223, 1321-1331`: the items of both new pages, read back from their bytes, and the
rest of the batch. -/
def dataCut (x : Ctx) (cap : Nat) (its batch : List (Item Datum)) : List (Item Datum) × List (Item Datum) × List (Item Datum) :=
  match buildPage x.cfg its, batch with
  | some p, n :: _ => match findInLeafPage x p n with
    | some f => match splitLeaf x.cfg cap its f.offset batch with
      | some s => (decodePage x.cfg s.left, decodePage x.cfg s.right, s.rest)
      | none => (its, [], batch)
    | none => (its, [], batch)
  | _, _ => (its, [], batch)

/-- The methods of a posting tree. `cap` is RumDataPageSize, `capI` the free space of an empty interior page
(RumDataPageGetFreeSpace, `/repo/src/rum.h:288-291`); a downlink takes 24 bytes. `build`: `isBuild` of the index state. Interior pages:
dataIsEnoughSpace `/repo/src/rumdatapage.c:805-808`, dataSplitPageInternal `/repo/src/rumdatapage.c:1231-1315`. `zero` is the bound set by
RumInitPage, `/repo/src/rumutil.c:585-590`. -/
def dataOps (x : Ctx) (cap capI : Nat) (build : Bool) : Ops (Item Datum) where
  cmp := x.cmp
  locate := fun _ keys key => locateData x.cmp keys key
  found := dataFound x
  roomLeaf := dataRoomLeaf x cap
  place := dataPlace x cap
  cut := dataCut x cap
  roomInner := fun downs _ => 24 ≤ capI - downs.length * 24
  sep := fun rm downs => if build && rm then capI / 24 else downs.length / 2
  zero := minItem
  rootKey := fun b _ _ => b

/-- createPostingTree, `/repo/src/ruminsert.c:52-115`: a single page, root and leaf, with the items (the caller makes sure they fit). -/
def createTree (s : Store (Item Datum)) (its : List (Item Datum)) : Store (Item Datum) × Nat :=
  (({ s with next := s.next + 1 } : Store (Item Datum)).set s.next ⟨true, its, [], minItem, none, none, false⟩, s.next)

/-- A sequence of calls of rumInsertItemPointers (`/repo/src/rumdatapage.c:1511-1547`), one per batch: the final store, and whether all
succeeded. -/
def insertMany (o : Ops (Item Datum)) (root : Nat) (s : Store (Item Datum)) : List (List (Item Datum)) → Store (Item Datum) × Bool
  | [] => (s, true)
  | b :: bs =>
    let r := insertItems o root b.length s b
    if r.2 then insertMany o root (lastStore s r.1) bs else (lastStore s r.1, false)

end Rum.Tree
