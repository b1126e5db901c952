import Verif.Query
import Verif.Sort
/-!
# Prefix search and full-index search: collecting the rows of many keys

collectMatchBitmap walks the leaf pages of the entry tree from the first key that may match, puts the items of all matching keys into a sort, and
entryGetItem delivers the sorted items with those of the same row joined.

Simplifications: one backend (the page is not changed while a posting tree is read, so the position re-found at `/repo/src/rumget.c:425-449` is the
position left); rum_fuzzy_search_limit is 0; the sort (PostgreSQL's tuplesort) is any sorting function. Additional info is a value here; in the code scanPostingTree
reads it without a copy (`/repo/src/rumget.c:266`), so that additional info passed by reference points into pages that are released before the sort is
read: see DESIGN.md.
-/
namespace Rum.Index
open Rum Rum.Codec Rum.Leaf Rum.Entry Rum.Tree Rum.Extract Rum.Sort

variable {V : Type}

/-- How an entry of a scan searches (`isPartialMatch` and `searchMode` of RumScanEntryData, `/repo/src/rum.h:665-718`); `part` with the partial match
function applied to the query key, the strategy and the extra data. -/
inductive Mode (V : Type)
  | exact
  | part (cp : V → Int)
  | all
  | everything

/-- An entry of a scan: `queryCategory`, `queryKey` and the way it searches. -/
structure Look (V : Type) where
  cat : Cat
  key : V
  mode : Mode V

/-- moveRightIfItNeeded, `/repo/src/rumget.c:191-211`: `none` is `false`. -/
def moveRight {α : Type} (s : Store α) (b off : Nat) : Option (Nat × Nat) :=
  if (s.page b).items.length < off then (s.page b).right.map (fun r => (r, 1)) else some (b, off)

/-- The items of one leaf page in scanPostingTree, `/repo/src/rumget.c:252-271`. -/
def pageItems (x : Ctx) (p : Tree.Page (Item Datum)) : Option (List (Item Datum)) :=
  if p.deleted then some []
  else match buildPage x.cfg p.items with
    | some q => (readList x.cfg 0 ⟨0, 0⟩ q.maxoff q.data).map Prod.fst
    | none => none

/-- The items of several pages. -/
def pagesItems (x : Ctx) : List (Tree.Page (Item Datum)) → Option (List (Item Datum))
  | [] => some []
  | p :: ps => match pageItems x p, pagesItems x ps with
    | some l, some ls => some (l ++ ls)
    | _, _ => none

/-- scanPostingTree, `/repo/src/rumget.c:217-282`. -/
def scanPostingTree (x : Ctx) (s : Store (Item Datum)) : Option (List (Item Datum)) :=
  match leftmost s s.next 0 with
  | some b => pagesItems x (chain s s.next b)
  | none => none

/-- What becomes of a tuple in collectMatchBitmap. -/
inductive Verdict
  | stop
  | skip
  | take
deriving DecidableEq

/-- The tests on a tuple in collectMatchBitmap, `/repo/src/rumget.c:345-398`. -/
def judge (attnum : Nat) (m : Mode V) (k : AttKey V) : Verdict :=
  if k.attnum ≠ attnum then .stop
  else match m with
    | .part cp =>
      if k.cat ≠ .norm then .stop
      else if cp k.key > 0 then .stop
      else if cp k.key < 0 then .skip
      else .take
    | .all => if k.cat = .nullItem then .stop else .take
    | _ => .take

/-- The items of a tuple in collectMatchBitmap, `/repo/src/rumget.c:400-481`. -/
def Ix.tupleItems (ix : Ix V) (st : State V) (e : Ent V) : Option (List (Item Datum)) :=
  match e.post with
  | .tree t => scanPostingTree (ix.ctx e.key.attnum) (st.trees t)
  | .list _ _ => some (ix.readTuple e)

/-- The loop of collectMatchBitmap, `/repo/src/rumget.c:328-488`, from offset `off` of page `b` on; `none`: no end after `n` tuples, or an access
outside of the page. -/
def Ix.collect (ix : Ix V) (st : State V) (attnum : Nat) (m : Mode V) : Nat → Nat → Nat → Option (List (Item Datum))
  | 0, _, _ => none
  | n + 1, b, off =>
    match moveRight st.entry b off with
    | none => some []
    | some (b', off') =>
      match (st.entry.page b').items[off' - 1]? with
      | none => none
      | some e =>
        match judge attnum m e.key with
        | .stop => some []
        | .skip => ix.collect st attnum m n b' (off' + 1)
        | .take => match ix.tupleItems st e, ix.collect st attnum m n b' (off' + 1) with
          | some l, some ls => some (l ++ ls)
          | _, _ => none

/-- The additional info of a row collected so far and that of its next item, `/repo/src/rumget.c:1252-1290`; `join` is the column's joinAddInfoFn if it
has one. -/
def joinInfo (join : Option (Datum → Datum → Datum)) : Option Datum → Option Datum → Option Datum
  | none, y => y
  | some x, none => some x
  | some x, some y => match join with
    | some f => some (f x y)
    | none => some y

/-- `entry->collectRumItem`: minimal (nothing yet), the first item of the next row, or maximal (the end was seen). -/
inductive Pending
  | min
  | item (x : Item Datum)
  | max

/-- The inner loop of entryGetItem, `/repo/src/rumget.c:1226-1306`: from the item collected so far (`none`: minimal) and the sorted items to come, the
current item, the first item of the next row and what is left. -/
def gather (join : Option (Datum → Datum → Datum)) : Option (Item Datum) → List (Item Datum) → Option (Item Datum) × Option (Item Datum) × List (Item Datum)
  | c, [] => (c, none, [])
  | none, x :: xs => gather join (some x) xs
  | some c, x :: xs =>
    if cmpIptr c.iptr x.iptr = .eq then gather join (some ⟨x.iptr, joinInfo join c.info x.info⟩) xs else (some c, some x, xs)

/-- The collected item a call starts with, `/repo/src/rumget.c:1220-1223`. -/
def Pending.start : Pending → Option (Item Datum)
  | .item x => some x
  | _ => none

/-- Calls of entryGetItem with a sort state until the entry is finished, `/repo/src/rumget.c:1204-1325`. -/
def drainSort (join : Option (Datum → Datum → Datum)) : Nat → Pending → List (Item Datum) → Option (List (Item Datum))
  | 0, _, _ => none
  | _ + 1, .max, _ => some []
  | n + 1, p, l =>
    match gather join p.start l with
    | (none, _, _) => some []
    | (some y, some x, rest) => (drainSort join n (.item x) rest).map (fun ys => y :: ys)
    | (some y, none, rest) => (drainSort join n .max rest).map (fun ys => y :: ys)

/-- What decides the order of the items of a column in the sort, `/repo/src/rumget.c:307-315`. -/
def Ix.sortCmp (ix : Ix V) (attnum : Nat) : Item Datum → Item Datum → Ordering :=
  comparetupRumitem (if (ix.ctx attnum).cfg.alt && (ix.ctx attnum).isAddTo then some (ix.ctx attnum).cmpV else none)

/-- A partial match with a NULL query key finds nothing, `/repo/src/rumget.c:321-323`. -/
def Look.void (lk : Look V) : Bool := match lk.mode with
  | .part _ => decide (lk.cat ≠ .norm)
  | _ => false

/-- startScanEntry with collectMatchBitmap (`/repo/src/rumget.c:568-617`) and entryGetItem until the entry is finished. -/
def Ix.readMany (ix : Ix V) [Inhabited V] (sort : (Item Datum → Item Datum → Ordering) → List (Item Datum) → List (Item Datum))
    (join : Nat → Option (Datum → Datum → Datum)) (st : State V) (n : Nat) (attnum : Nat) (lk : Look V) : Option (List (Item Datum)) :=
  match findLeaf ix.ops st.entry rootBlk (probe ⟨attnum, lk.cat, lk.key⟩) st.entry.next rootBlk [] with
  | some ((b, _) :: _) =>
    (if lk.void then some []
      else ix.collect st attnum lk.mode n b (ix.locate (st.entry.page b).items (probe ⟨attnum, lk.cat, lk.key⟩)).2).bind
      (fun l => drainSort (join attnum) n .min (sort (ix.sortCmp attnum) l))
  | _ => none

/-- What an entry of a scan delivers. -/
def Ix.readLook (ix : Ix V) [Inhabited V] (sort : (Item Datum → Item Datum → Ordering) → List (Item Datum) → List (Item Datum))
    (join : Nat → Option (Datum → Datum → Datum)) (st : State V) (junk : Item Datum) (n : Nat) (attnum : Nat) (lk : Look V) :
    Option (List (Item Datum)) :=
  match lk.mode with
  | .exact => ix.readEntry st junk n ⟨attnum, lk.cat, lk.key⟩
  | _ => ix.readMany sort join st n attnum lk

/-- A condition of the WHERE clause with any entries. -/
structure Clause (V : Type) where
  attnum : Nat
  looks : List (Look V)
  cons : List (Option (Option Datum)) → Bool × Bool

/-- What the entries of a condition drainSort. -/
def Ix.readLooks (ix : Ix V) [Inhabited V] (sort : (Item Datum → Item Datum → Ordering) → List (Item Datum) → List (Item Datum))
    (join : Nat → Option (Datum → Datum → Datum)) (st : State V) (junk : Item Datum) (n : Nat) (attnum : Nat) :
    List (Look V) → Option (List (List (Item Datum)))
  | [] => some []
  | k :: ks => match ix.readLook sort join st junk n attnum k, ix.readLooks sort join st junk n attnum ks with
    | some l, some ls => some (l :: ls)
    | _, _ => none

/-- The scan keys of the conditions. -/
def Ix.clauseKeys (ix : Ix V) [Inhabited V] (rc : RowCfg V) (sort : (Item Datum → Item Datum → Ordering) → List (Item Datum) → List (Item Datum))
    (join : Nat → Option (Datum → Datum → Datum)) (st : State V) (junk : Item Datum) (n : Nat) : List (Clause V) → Option (List (Scan.KeySpec Datum))
  | [] => some []
  | c :: cs => match ix.readLooks sort join st junk n c.attnum c.looks, ix.clauseKeys rc sort join st junk n cs with
    | some ls, some ks => some (⟨false, decide (rc.addTo = some c.attnum), c.cons, ls⟩ :: ks)
    | _, _ => none

/-- A search with conditions of any kind and no ORDER BY, by a regular scan (`/repo/src/rumget.c:1571-1791`, `2337-2371`; a partial match in one of
the conditions rules out a fast scan, `/repo/src/rumget.c:850-872`): rows with recheck flags, and whether the scan ended. -/
def Ix.find (ix : Ix V) [Inhabited V] (rc : RowCfg V) (alternative : Bool)
    (sort : (Item Datum → Item Datum → Ordering) → List (Item Datum) → List (Item Datum)) (join : Nat → Option (Datum → Datum → Datum)) (st : State V)
    (junk : Item Datum) (n : Nat) (c : Clause V) (cs : List (Clause V)) : Option (List (Item Datum × Bool) × Bool) :=
  (ix.clauseKeys rc sort join st junk n (c :: cs)).map
    (fun ks => Scan.regularScan ⟨(ix.ctx c.attnum).cmp, (ix.ctx c.attnum).cmp⟩ alternative ks n)

end Rum.Index
