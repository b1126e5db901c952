import Verif.EntryPage
/-!
# Model of the B-trees of the index (`/repo/src/rumbtree.c`): descent, insertion with page splits, the records written

The same code serves posting trees and the entry tree, through the method table `RumBtreeData` (`/repo/src/rum.h:516-568`); here `Ops`.
A page is modelled by its contents; what the methods do to the bytes of a leaf page is the subject of `DataPage` and `EntryPage`.
Every write-ahead-log record is one atomic change of the store, and an insertion is the list of the stores after each of its records.
-/
namespace Rum.Tree
open Rum Rum.Entry

variable {α : Type}

/-- A page: items of a leaf, downlinks (key, child) of an interior page, right bound, links to the siblings
(`/repo/src/rum.h:35-92, 219-249`). The right bound of the entry tree is the key of the last tuple, and of a rightmost page
meaningless. -/
structure Page (α : Type) where
  leaf : Bool
  items : List α
  downs : List (α × Nat)
  bound : α
  right : Option Nat
  left : Option Nat
  deleted : Bool

/-- The blocks of the relation; `next` is the first block not in use. -/
structure Store (α : Type) where
  page : Nat → Page α
  next : Nat

def Store.set (s : Store α) (b : Nat) (p : Page α) : Store α := { s with page := fun i => if i = b then p else s.page i }

/-- The methods of a tree. `locate` (findChildPage): offset from 1 of the downlink to follow, from "is rightmost" and the keys. `found`
(findItem). `roomLeaf`, `roomInner` (isEnoughSpace). `place` (placeToPage on a leaf): new items from old items, right bound (`none` on a
rightmost page) and batch; with what is left of the batch. `cut` (splitPage on a leaf): items of left and right page, and what
is left of the batch. `sep` (splitPage on an interior page): number of downlinks that stay left. `zero`: right bound of a fresh page.
`rootKey` (fillRoot): the key of the downlink to the right page under a new root, from the bound, items and downlinks of that page. -/
structure Ops (α : Type) where
  cmp : α → α → Ordering
  locate : Bool → List α → α → Nat
  found : List α → α → Bool
  roomLeaf : List α → List α → Bool
  place : List α → Option α → List α → List α × List α
  cut : List α → List α → List α × List α × List α
  roomInner : List (α × Nat) → α → Bool
  sep : Bool → List (α × Nat) → Nat
  zero : α
  rootKey : α → List α → List (α × Nat) → α

/-- The right bound as isMoveRight sees it: none on a rightmost page (`/repo/src/rumdatapage.c:419-420`, `/repo/src/rumentrypage.c:129-130`). -/
def Page.hi (p : Page α) : Option α := if p.right.isSome then some p.bound else none

/-- The `while` that moves right, `/repo/src/rumbtree.c:151-165`, with dataIsMoveRight `/repo/src/rumdatapage.c:414-428`. -/
def moveRight (o : Ops α) (s : Store α) (x : α) : Nat → Nat → Nat
  | 0, b => b
  | n + 1, b =>
    match (s.page b).right with
    | none => b
    | some r => if o.cmp x (s.page b).bound = .gt then moveRight o s x n r else b

/-- rumFindLeafPage, `/repo/src/rumbtree.c:120-203`: the path from the leaf up to the root, with the offsets of the downlinks
followed. (Concurrent changes between the page accesses are modelled separately, see `Step`.) -/
def findLeaf (o : Ops α) (s : Store α) (root : Nat) (x : α) : Nat → Nat → List (Nat × Nat) → Option (List (Nat × Nat))
  | 0, _, _ => none
  | n + 1, b, up =>
    let b := if b = root then b else moveRight o s x s.next b
    let p := s.page b
    if p.leaf then some ((b, 0) :: up)
    else
      let off := o.locate p.right.isNone (p.downs.map Prod.fst) x
      match p.downs[off - 1]? with
      | some d => findLeaf o s root x n d.2 ((b, off) :: up)
      | none => none

/-- The search for the downlink to `child`, moving right from the remembered parent, `/repo/src/rumbtree.c:608-635`; `none` at the
rightmost page. -/
def parentWalk (s : Store α) (child : Nat) : Nat → Nat → Nat → Option (Nat × Nat)
  | 0, _, _ => none
  | n + 1, b, off =>
    match findChildPtr ((s.page b).downs.map Prod.snd) child off with
    | 0 =>
      match (s.page b).right with
      | none => none
      | some r => parentWalk s child n r 0
    | k + 1 => some (b, k + 1)

/-- The loop of rumFindParents over the levels, `/repo/src/rumbtree.c:322-358`: `none` is the error "Lost path". -/
def findParentsGo (s : Store α) (child : Nat) : Nat → Nat → Option (Nat × Nat)
  | 0, _ => none
  | n + 1, b =>
    if (s.page b).leaf then none
    else
      match parentWalk s child s.next b 0 with
      | some r => some r
      | none =>
        match (s.page b).downs.head? with
        | some d => findParentsGo s child n d.2
        | none => none

/-- rumFindParents, `/repo/src/rumbtree.c:269-359`: page and offset of the downlink, and the path above (possibly not the right one). -/
def findParents (s : Store α) (root child : Nat) : Option ((Nat × Nat) × List (Nat × Nat)) :=
  match findChildPtr ((s.page root).downs.map Prod.snd) child 0 with
  | k + 1 => some ((root, k + 1), [])
  | 0 =>
    match (s.page root).downs.head? with
    | some d => (findParentsGo s child s.next d.2).map (fun r => (r, [(root, 0)]))
    | none => none

/-- The search for the parent of a split page, `/repo/src/rumbtree.c:604-637`. -/
def findParent (s : Store α) (root child : Nat) (up : List (Nat × Nat)) : Option ((Nat × Nat) × List (Nat × Nat)) :=
  match up with
  | [] => none
  | (b, off) :: up' =>
    match parentWalk s child s.next b off with
    | some r => some (r, up')
    | none => findParents s root child

/-- The downlinks of a page after the split of the child at offset `off`: the old downlink now leads to the new right page, before
it one with the key of the left page is inserted (dataPrepareData and RumDataPageAddItem, `/repo/src/rumdatapage.c:721-747, 818-836`;
entryPreparePage and entryPlaceToPage, `/repo/src/rumentrypage.c:364-411`). -/
def addDown (downs : List (α × Nat)) (off : Nat) (key : α) (child r : Nat) : List (α × Nat) :=
  (downs.modify (off - 1) (fun d => (d.1, r))).insertIdx (off - 1) (key, child)

/-- Splitting a page that is not the root into itself and the new page `s.next`: one record, `/repo/src/rumbtree.c:518-597`. -/
def splitAt (s : Store α) (b : Nat) (li ri : List α) (ld rd : List (α × Nat)) (key : α) : Store α :=
  let old := s.page b
  let r := s.next
  let s1 := ({ s with next := r + 1 } : Store α).set r ⟨old.leaf, ri, rd, old.bound, old.right, some b, false⟩
  let s2 := s1.set b ⟨old.leaf, li, ld, key, some r, old.left, false⟩
  match old.right with
  | none => s2
  | some rr => s2.set rr { s2.page rr with left := some r }

/-- Splitting the root: its content goes to the new pages `s.next + 1` (left) and `s.next` (right), one record,
`/repo/src/rumbtree.c:437-515`, with rumDataFillRoot `/repo/src/rumdatapage.c:1445-1461` and rumEntryFillRoot
`/repo/src/rumentrypage.c:532-560`. -/
def splitRoot (o : Ops α) (s : Store α) (root : Nat) (li ri : List α) (ld rd : List (α × Nat)) (key : α) : Store α :=
  let old := s.page root
  let r := s.next
  let l := s.next + 1
  ((({ s with next := r + 2 } : Store α).set r ⟨old.leaf, ri, rd, old.bound, none, some l, false⟩).set l
    ⟨old.leaf, li, ld, key, some r, none, false⟩).set root
    ⟨false, [], [(key, l), (o.rootKey old.bound ri rd, r)], o.zero, none, none, false⟩

/-- rumInsertValue from the parent of a split page on, `/repo/src/rumbtree.c:388-642`: `up` is the path above the split page `child`,
`key` its new bound, `r` the new right page. The stores after each record, and whether the end was reached (else: "Lost path"). -/
def insertUp (o : Ops α) (root : Nat) : Nat → Store α → List (Nat × Nat) → Nat → α → Nat → List (Store α) × Bool
  | 0, _, _, _, _, _ => ([], false)
  | n + 1, s, up, child, key, r =>
    match findParent s root child up with
    | none => ([], false)
    | some ((b, off), up') =>
      let p := s.page b
      let downs := addDown p.downs off key child r
      if o.roomInner p.downs key then ([s.set b { p with downs := downs }], true)
      else
        let k := o.sep p.right.isNone downs
        let key' := ((downs.take k).getLast?.map Prod.fst).getD o.zero
        match up' with
        | [] => ([splitRoot o s b [] [] (downs.take k) (downs.drop k) key'], true)
        | _ :: _ =>
          let s' := splitAt s b [] [] (downs.take k) (downs.drop k) key'
          let t := insertUp o root n s' up' b key' s.next
          (s' :: t.1, t.2)

/-- rumInsertValue, `/repo/src/rumbtree.c:369-642`, called with the path to a leaf: also what is left of the batch. -/
def insertValue (o : Ops α) (root : Nat) (s : Store α) (path : List (Nat × Nat)) (batch : List α) : List (Store α) × Bool × List α :=
  match path with
  | [] => ([], false, batch)
  | (b, _) :: up =>
    let p := s.page b
    if o.roomLeaf p.items batch then
      let r := o.place p.items p.hi batch
      ([s.set b { p with items := r.1 }], true, r.2)
    else
      let c := o.cut p.items batch
      let key := (c.1.getLast?).getD o.zero
      match up with
      | [] => ([splitRoot o s b c.1 c.2.1 [] [] key], true, c.2.2)
      | _ :: _ =>
        let s' := splitAt s b c.1 c.2.1 [] [] key
        let t := insertUp o root s.next s' up b key s.next
        (s' :: t.1, t.2, c.2.2)

/-- The last of a list of stores. -/
def lastStore (s : Store α) (l : List (Store α)) : Store α := l.getLast?.getD s

/-- rumInsertItemPointers, `/repo/src/rumdatapage.c:1511-1547`: the stores after each record, and whether all items were inserted. -/
def insertItems (o : Ops α) (root : Nat) : Nat → Store α → List α → List (Store α) × Bool
  | _, _, [] => ([], true)
  | 0, _, _ :: _ => ([], false)
  | n + 1, s, x :: xs =>
    match findLeaf o s root x s.next root [] with
    | none => ([], false)
    | some path =>
      match path with
      | [] => ([], false)
      | (b, _) :: _ =>
        if o.found (s.page b).items x then insertItems o root n s xs
        else
          let r := insertValue o root s path (x :: xs)
          if r.2.1 then
            let t := insertItems o root n (lastStore s r.1) r.2.2
            (r.1 ++ t.1, t.2)
          else (r.1, false)

/-- Does the tree hold an item equal to `x`: descent and search on the leaf. -/
def lookup (o : Ops α) (s : Store α) (root : Nat) (x : α) : Bool :=
  match findLeaf o s root x s.next root [] with
  | some ((b, _) :: _) => o.found (s.page b).items x
  | _ => false

/-- The leftmost leaf: descent with `fullScan`, `/repo/src/rumbtree.c:120-203`, `/repo/src/rumdatapage.c:447-455`. -/
def leftmost (s : Store α) : Nat → Nat → Option Nat
  | 0, _ => none
  | n + 1, b =>
    if (s.page b).leaf then some b
    else match (s.page b).downs.head? with
      | some d => leftmost s n d.2
      | none => none

/-- Following the right links with rumStep, `/repo/src/rumbtree.c:208-246`: the items of all pages. -/
def walk (s : Store α) : Nat → Nat → List α
  | 0, _ => []
  | n + 1, b =>
    (s.page b).items ++ match (s.page b).right with
      | some r => walk s n r
      | none => []

/-- All items a full forward scan of the tree meets. -/
def contents (s : Store α) (root : Nat) : List α :=
  match leftmost s s.next root with
  | some b => walk s s.next b
  | none => []

end Rum.Tree
