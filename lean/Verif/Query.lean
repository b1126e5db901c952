import Verif.RowInsert
import Verif.EntryScan
import Verif.Scan
import Verif.FastScan
/-!
# A query through the index: from the pages to the rows

The parts modelled elsewhere put together: descent in the entry tree, reading of a posting list or of the pages of a posting tree byte by byte,
the scan over the entries of all keys.
-/
namespace Rum.Index
open Rum Rum.Codec Rum.Leaf Rum.Entry Rum.Tree Rum.Extract

variable {V : Type}

/-- The pages met from a page on by following the right links, rumStep `/repo/src/rumbtree.c:208-246`. -/
def chain {α : Type} (s : Store α) : Nat → Nat → List (Tree.Page α)
  | 0, _ => []
  | n + 1, b => s.page b :: match (s.page b).right with
    | some r => chain s n r
    | none => []

/-- A leaf page of a posting tree as its bytes, with its right bound. -/
def leafBytes (x : Ctx) (p : Tree.Page (Item Datum)) : Option LeafB := (buildPage x.cfg p.items).map (fun q => ⟨q, p.hi⟩)

/-- The bytes of several leaf pages. -/
def leavesBytes (x : Ctx) : List (Tree.Page (Item Datum)) → Option (List LeafB)
  | [] => some []
  | p :: ps => match leafBytes x p, leavesBytes x ps with
    | some g, some gs => some (g :: gs)
    | _, _ => none

/-- The items that up to `n` calls of entryGetItem deliver from these pages, `none` if there is an access out of bounds or no end. -/
def readPages (x : Ctx) (junk : Item Datum) (n : Nat) : List LeafB → Option (List (Item Datum))
  | [] => none
  | g :: gs => if (scanAll x true none g gs junk n).2 = .finished then some (scanAll x true none g gs junk n).1 else none

/-- A posting tree read from its leftmost leaf on, startScanEntry `/repo/src/rumget.c:637-676` and entryGetNextItem `/repo/src/rumget.c:918-1029`.
`junk` is what the memory of `entry->list` happens to contain. -/
def readTree (x : Ctx) (s : Store (Item Datum)) (junk : Item Datum) (n : Nat) : Option (List (Item Datum)) :=
  match leftmost s s.next 0 with
  | some b => (leavesBytes x (chain s s.next b)).bind (readPages x junk n)
  | none => none

/-- startScanEntry with descent in the entry tree (`/repo/src/rumget.c:544-715`) and entryGetItem until the entry is finished (`:1329-1360`): what the
entry of an exact key delivers. -/
def Ix.readEntry (ix : Ix V) [Inhabited V] (st : State V) (junk : Item Datum) (n : Nat) (k : AttKey V) : Option (List (Item Datum)) :=
  match findLeaf ix.ops st.entry rootBlk (probe k) st.entry.next rootBlk [] with
  | some ((b, _) :: _) =>
    let its := (st.entry.page b).items
    let f := ix.locate its (probe k)
    if f.1 then
      match its[f.2 - 1]? with
      | some e =>
        match e.post with
        | .tree t => readTree (ix.ctx k.attnum) (st.trees t) junk n
        | .list _ _ => some (ix.readTuple e)
      | none => none
    else some []
  | _ => none

/-- A condition of the WHERE clause, as extractQuery and the consistency functions of the operator class see it: the column, the keys to look
up (no prefix search, search mode default), and the consistency function applied to the entries found with their additional info. -/
structure Cond (V : Type) where
  attnum : Nat
  keys : List V
  cons : List (Option (Option Datum)) → Bool × Bool
  pre : List Bool → Bool

/-- What the entries of a condition deliver. -/
def Ix.readKeys (ix : Ix V) [Inhabited V] (st : State V) (junk : Item Datum) (n : Nat) (attnum : Nat) : List V → Option (List (List (Item Datum)))
  | [] => some []
  | k :: ks => match ix.readEntry st junk n ⟨attnum, .norm, k⟩, ix.readKeys st junk n attnum ks with
    | some l, some ls => some (l :: ls)
    | _, _ => none

/-- The scan keys of the conditions. -/
def Ix.scanKeys (ix : Ix V) [Inhabited V] (rc : RowCfg V) (st : State V) (junk : Item Datum) (n : Nat) : List (Cond V) → Option (List (Fast.FSpec Datum))
  | [] => some []
  | c :: cs => match ix.readKeys st junk n c.attnum c.keys, ix.scanKeys rc st junk n cs with
    | some ls, some ks => some (⟨⟨false, decide (rc.addTo = some c.attnum), c.cons, ls⟩, c.attnum, c.pre⟩ :: ks)
    | _, _ => none

/-- A search with conditions and no ORDER BY, by a regular scan (`/repo/src/rumget.c:1571-1791`, `2337-2371`): rows with recheck flags, and whether the
scan ended. `alternative` is the index option order_by_attach. Items are compared by the first condition's column (all columns of one kind
compare alike, see `SameKind`). -/
def Ix.search (ix : Ix V) [Inhabited V] (rc : RowCfg V) (alternative : Bool) (st : State V) (junk : Item Datum) (n : Nat) (c : Cond V) (cs : List (Cond V)) :
    Option (List (Item Datum × Bool) × Bool) :=
  (ix.scanKeys rc st junk n (c :: cs)).map
    (fun ks => Scan.regularScan ⟨(ix.ctx c.attnum).cmp, (ix.ctx c.attnum).cmp⟩ alternative (ks.map (·.spec)) n)

/-- The same by a fast scan (`/repo/src/rumget.c:2128-2245`), for one condition. `predict` are the estimated sizes of the entries, `perm` the
result of the initial sort. -/
def Ix.searchFast (ix : Ix V) [Inhabited V] (rc : RowCfg V) (st : State V) (junk : Item Datum) (n : Nat) (c : Cond V) (predict : Nat → Nat)
    (perm : List Nat) : Option (List (Item Datum × Bool) × Bool) :=
  (ix.scanKeys rc st junk n [c]).map (fun ks => Fast.fastScan (fun _ => (ix.ctx c.attnum).cmp) predict ks perm n)

end Rum.Index
