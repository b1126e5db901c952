import Verif.Order
import Verif.Sorted
/-
Entry-tree pages (and the interior pages of posting trees): binary searches, child lookup, split.
-/
namespace Rum.Entry
open Rum

/-! ### Binary searches -/

/-- The loop shared by entryLocateEntry, entryLocateLeafEntry and dataLocateItem: /repo/src/rumentrypage.c:174-210,
:247-278, /repo/src/rumdatapage.c:463-497. `cmpAt mid` is the loop's `result`; `(true, mid)` on equality, else
`(false, high)`. `fuel` bounds the number of iterations (each shortens the range). -/
def searchLoop (cmpAt : Nat → Ordering) : Nat → Nat → Nat → Bool × Nat
  | 0, _, high => (false, high)
  | fuel + 1, low, high =>
    if high > low then
      let mid := low + (high - low) / 2
      match cmpAt mid with
      | .eq => (true, mid)
      | .gt => searchLoop cmpAt fuel (mid + 1) high
      | .lt => searchLoop cmpAt fuel low mid
    else (false, high)

variable {K T : Type}

/-- Comparing the searched key with the tuple at offset `mid`, /repo/src/rumentrypage.c:190-197. -/
def cmpTuple (cmp : K → T → Ordering) (page : List T) (k : K) (mid : Nat) : Ordering :=
  match page[mid - 1]? with | some t => cmp k t | none => .lt

/-- entryLocateLeafEntry without `fullScan`, /repo/src/rumentrypage.c:224-281: found?, offset (from 1). `cmp k t` compares
the searched key with the tuple `t`. -/
def locateLeaf (cmp : K → T → Ordering) (page : List T) (k : K) : Bool × Nat :=
  if page.length < 1 then (false, 1)
  else searchLoop (fun mid => cmpTuple cmp page k mid) (page.length + 1) 1 (page.length + 1)

/-- entryLocateEntry without `fullScan`, /repo/src/rumentrypage.c:148-217: the offset (from 1) of the chosen downlink. -/
def locateEntry (cmp : K → T → Ordering) (rightmost : Bool) (page : List T) (k : K) : Nat :=
  (searchLoop (fun mid =>
    if mid = page.length ∧ rightmost then .lt
    else cmpTuple cmp page k mid) (page.length + 1) 1 (page.length + 1)).2

/-- dataLocateItem without `fullScan`, /repo/src/rumdatapage.c:434-505. -/
def locateData (cmp : K → T → Ordering) (page : List T) (k : K) : Nat :=
  (searchLoop (fun mid =>
    if mid = page.length then .lt
    else cmpTuple cmp page k mid) (page.length + 1) 1 (page.length + 1)).2

/-- entryFindChildPtr and dataFindChildPtr, /repo/src/rumentrypage.c:283-319, /repo/src/rumdatapage.c:645-685, on the list
of downlinks of the page; 0 is InvalidOffsetNumber. -/
def findChildPtr (downs : List Nat) (blkno storedOff : Nat) : Nat :=
  if 1 ≤ storedOff ∧ storedOff ≤ downs.length then
    if downs[storedOff - 1]? = some blkno then storedOff
    else match (downs.drop storedOff).findIdx? (· == blkno) with
      | some i => storedOff + 1 + i
      | none => match (downs.take (storedOff - 1)).findIdx? (· == blkno) with
        | some i => i + 1
        | none => 0
  else match downs.findIdx? (· == blkno) with
    | some i => i + 1
    | none => 0

/-! ### Space and split -/

/-- A tuple of an entry-tree page: its key, its size (`MAXALIGN(IndexTupleSize)`), its downlink (interior pages). -/
structure ETuple (K : Type) where
  key : K
  size : Nat
  down : Nat
deriving DecidableEq

/-- Space a tuple takes on a page: tuple and line pointer (`sizeof(ItemIdData)` is 4). -/
def ETuple.space (t : ETuple K) : Nat := t.size + 4

/-- Space used by tuples. -/
def used (l : List (ETuple K)) : Nat := (l.map ETuple.space).sum

/-- PageGetFreeSpace (PostgreSQL): free bytes of a page less one line pointer, 0 if negative. `cap` is the space between
page header and opaque data. -/
def pageFree (cap : Nat) (page : List (ETuple K)) : Nat := cap - used page - 4

/-- The insertion request: the new tuple, whether it replaces the one at the position (`isDelete`), and the block number
of the new right child if a child was split (`rightblkno`). -/
structure Ins (K : Type) where
  entry : ETuple K
  isDelete : Bool
  right : Option Nat

/-- Space of the tuple to be replaced, /repo/src/rumentrypage.c:345-350. -/
def replacedSpace (page : List (ETuple K)) (off : Nat) (ins : Ins K) : Nat :=
  if ins.isDelete then (match page[off - 1]? with | some t => t.space | none => 0) else 0

/-- entryIsEnoughSpace, /repo/src/rumentrypage.c:337-357. -/
def enoughSpace (cap : Nat) (page : List (ETuple K)) (off : Nat) (ins : Ins K) : Bool :=
  decide (pageFree cap page + replacedSpace page off ins ≥ ins.entry.space)

/-- entryPreparePage, /repo/src/rumentrypage.c:364-389. -/
def preparePage (leaf : Bool) (page : List (ETuple K)) (off : Nat) (ins : Ins K) : List (ETuple K) :=
  let page := if ins.isDelete then page.eraseIdx (off - 1) else page
  match leaf, ins.right with
  | false, some r => page.modify (off - 1) (fun t => { t with down := r })
  | _, _ => page

/-- entryPlaceToPage, /repo/src/rumentrypage.c:394-411 (`PageAddItem` at a given offset shifts the later ones). -/
def placeToPage (leaf : Bool) (page : List (ETuple K)) (off : Nat) (ins : Ins K) : List (ETuple K) :=
  (preparePage leaf page off ins).insertIdx (off - 1) ins.entry

/-- First loop of entrySplitPage, /repo/src/rumentrypage.c:453-477: collecting all tuples with the new one before position
`off`, or at the end if `off == maxoff + 1`. `i` is the loop variable. -/
def collect (off : Nat) (entry : ETuple K) : Nat → List (ETuple K) → List (ETuple K)
  | i, [] => if off = i then [entry] else []
  | i, t :: ts => if i = off then entry :: t :: collect off entry (i + 1) ts else t :: collect off entry (i + 1) ts

/-- Second loop of entrySplitPage, /repo/src/rumentrypage.c:487-508: tuples go to the left page until it has more than half. -/
def distribute (half : Nat) : Nat → List (ETuple K) → List (ETuple K) × List (ETuple K)
  | _, [] => ([], [])
  | lsize, t :: ts =>
    if lsize > half then let r := distribute half lsize ts; (r.1, t :: r.2)
    else let r := distribute half (lsize + t.space) ts; (t :: r.1, r.2)

/-- Result of a split: left page, right page, tuple passed on as separator (`leftrightmost`). -/
structure ESplit (K : Type) where
  left : List (ETuple K)
  right : List (ETuple K)
  sep : Option (ETuple K)

/-- entrySplitPage, /repo/src/rumentrypage.c:419-513. The page images are only filled here; `PageAddItem` failing (the
page is full) is the outcome `none`. -/
def splitPage (cap : Nat) (leaf : Bool) (page : List (ETuple K)) (off : Nat) (ins : Ins K) : Option (ESplit K) :=
  let all := collect off ins.entry 1 (preparePage leaf page off ins)
  let d := distribute (used all / 2) 0 all
  if used d.1 ≤ cap ∧ used d.2 ≤ cap then some ⟨d.1, d.2, d.1.getLast?⟩ else none

end Rum.Entry
