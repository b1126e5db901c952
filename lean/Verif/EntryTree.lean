import Verif.PostingTree
import Verif.Merge
/-!
# The index as a whole: entry tree, posting lists in its tuples, posting trees

rumPrepareEntryScan, `/repo/src/rumentrypage.c:565-600`, sets the method table of the entry tree; the insertion is `/repo/src/ruminsert.c`.
The states of the index after each write-ahead-log record are the result of an insertion.

Simplifications: every posting tree has a block numbering of its own (in the code all trees share the blocks of the relation); the key part of an
index tuple (index_form_tuple of PostgreSQL) is known only by its size; a tuple stores its key itself rather than its bytes.
-/
namespace Rum.Index
open Rum Rum.Codec Rum.Leaf Rum.Entry Rum.Tree

variable {V : Type}

/-- What follows the key in a leaf tuple: the bytes of a posting list with the number of items, or the posting tree
(`/repo/src/rum.h:228-249`). -/
inductive Payload
  | list (data : List Nat) (n : Nat)
  | tree (t : Nat)
deriving DecidableEq

/-- A leaf tuple of the entry tree: key, size (IndexTupleSize), payload. Used on interior pages too, where only key and key size matter. -/
structure Ent (V : Type) where
  key : AttKey V
  size : Nat
  post : Payload

/-- What the functions need of RumState: comparison of the keys of each column, size of the key part of a tuple (index_form_tuple), encoding and
order of the items of each column, `isBuild`. -/
structure Ix (V : Type) where
  cmpK : Nat → V → V → Ordering
  keySize : AttKey V → Nat
  ctx : Nat → Ctx
  build : Bool

/-- RumMaxItemSize, `/repo/src/rum.h:252-256`: a third of a page less header and opaque data, aligned. -/
def maxTuple : Nat := (8192 - 40 - 16) / 3 / 8 * 8

/-- Space for tuples and line pointers on an entry page: page less header (24) and opaque data (16). -/
def entryCap : Nat := 8192 - 24 - 16

/-- RumDataPageSize, `/repo/src/rum.h:313-317`. -/
def dataCap : Nat := 7368

/-- RumDataPageGetFreeSpace of an empty interior page, `/repo/src/rum.h:285-289`. -/
def innerCap : Nat := 8136

/-- rumCompareAttEntries on tuples. -/
def Ix.cmp (ix : Ix V) (a b : Ent V) : Ordering := cmpAttEntries ix.cmpK a.key b.key

/-- sizeof(RumNullCategory) where a category byte is stored, `/repo/src/ruminsert.c:186-190`. -/
def catByte (k : AttKey V) : Nat := if k.cat = .norm then 0 else 1

/-- Size of a tuple with a posting list, `/repo/src/ruminsert.c:162-191`. -/
def Ix.tupleSize (ix : Ix V) (k : AttKey V) (its : List (Item Datum)) : Nat :=
  alignUp 8 (checkList (ix.ctx k.attnum).cfg ⟨0, 0⟩ (ix.keySize k) its + catByte k)

/-- RumFormTuple with a posting list, `/repo/src/ruminsert.c:132-247`; `none`: too big. -/
def Ix.formTuple (ix : Ix V) (k : AttKey V) (its : List (Item Datum)) : Option (Ent V) :=
  if ix.tupleSize k its > maxTuple then none
  else match placeList (ix.ctx k.attnum).cfg (ix.keySize k) ⟨0, 0⟩ its with
    | some data => some ⟨k, ix.tupleSize k its, .list data its.length⟩
    | none => none

/-- RumFormTuple with `nipd = 0`, then RumSetPostingTree, `/repo/src/ruminsert.c:325-327, 377, 406`; `none` is the error "index row size exceeds
maximum". -/
def Ix.formTree (ix : Ix V) (k : AttKey V) (t : Nat) : Option (Ent V) :=
  if ix.tupleSize k [] > maxTuple then none else some ⟨k, ix.tupleSize k [], .tree t⟩

/-- rumReadTuple, `/repo/src/rumentrypage.c:21-38`. -/
def Ix.readTuple (ix : Ix V) (e : Ent V) : List (Item Datum) :=
  match e.post with
  | .list data n => match readList (ix.ctx e.key.attnum).cfg (ix.keySize e.key) ⟨0, 0⟩ n data with
    | some (its, _) => its
    | none => []
  | .tree _ => []

/-- Size of the interior tuple formed from a tuple, RumFormInteriorTuple `/repo/src/rumentrypage.c:72-90` (`keySize` is RumGetPostingOffset). -/
def Ix.innerSize (ix : Ix V) (e : Ent V) : Nat :=
  match e.post with
  | .list _ _ => alignUp 8 (ix.keySize e.key)
  | .tree _ => e.size

/-- A leaf tuple as the page functions see it. -/
def leafT (e : Ent V) : ETuple (Ent V) := ⟨e, e.size, 0⟩

/-- An interior tuple as the page functions see it. -/
def Ix.innerT (ix : Ix V) (d : Ent V × Nat) : ETuple (Ent V) := ⟨d.1, ix.innerSize d.1, d.2⟩

/-- entryLocateLeafEntry, `/repo/src/rumentrypage.c:224-281`. -/
def Ix.locate (ix : Ix V) (its : List (Ent V)) (e : Ent V) : Bool × Nat := locateLeaf ix.cmp its e

/-- The insertion request for a leaf: the tuple replaces an existing one exactly if its key was found, `/repo/src/ruminsert.c:439-470`. -/
def Ix.request (ix : Ix V) (its : List (Ent V)) (e : Ent V) : Ins (Ent V) := ⟨leafT e, (ix.locate its e).1, none⟩

/-- The methods of the entry tree. -/
def Ix.ops (ix : Ix V) [Inhabited V] : Ops (Ent V) where
  cmp := ix.cmp
  locate := fun rm keys e => locateEntry ix.cmp rm keys e
  found := fun its e => (ix.locate its e).1
  roomLeaf := fun its batch => match batch with
    | e :: _ => enoughSpace entryCap (its.map leafT) (ix.locate its e).2 (ix.request its e)
    | [] => false
  place := fun its _ batch => match batch with
    | e :: rest => ((placeToPage true (its.map leafT) (ix.locate its e).2 (ix.request its e)).map ETuple.key, rest)
    | [] => (its, [])
  cut := fun its batch => match batch with
    | e :: rest => match splitPage entryCap true (its.map leafT) (ix.locate its e).2 (ix.request its e) with
      | some s => (s.left.map ETuple.key, s.right.map ETuple.key, rest)
      | none => (its, [], batch)
    | [] => (its, [], [])
  roomInner := fun downs e => enoughSpace entryCap (downs.map ix.innerT) 1 ⟨ix.innerT (e, 0), false, none⟩
  sep := fun _ downs => (distribute (used (downs.map ix.innerT) / 2) 0 (downs.map ix.innerT)).1.length
  zero := ⟨⟨0, .norm, default⟩, 0, .tree 0⟩
  rootKey := fun b its downs => ((its.getLast?).or (downs.getLast?.map Prod.fst)).getD b

/-- The index: entry tree and posting trees. -/
structure State (V : Type) where
  entry : Store (Ent V)
  trees : Nat → Store (Item Datum)
  ntrees : Nat

/-- RUM_ROOT_BLKNO, `/repo/src/rum.h:69`. -/
def rootBlk : Nat := 1

/-- No blocks at all. -/
def noStore : Store (Item Datum) := ⟨fun _ => ⟨true, [], [], minItem, none, none, true⟩, 0⟩

/-- The empty index: metapage and an empty root, `/repo/src/ruminsert.c:629-668, 735-757`. -/
def emptyIndex [Inhabited V] : State V where
  entry := ⟨fun _ => ⟨true, [], [], ⟨⟨0, .norm, default⟩, 0, .tree 0⟩, none, none, false⟩, 2⟩
  trees := fun _ => noStore
  ntrees := 0

/-- The methods of the posting trees of a column. -/
def Ix.treeOps (ix : Ix V) (attnum : Nat) : Ops (Item Datum) := dataOps (ix.ctx attnum) dataCap innerCap ix.build

def State.setTree (st : State V) (t : Nat) (s : Store (Item Datum)) : State V :=
  { st with trees := fun i => if i = t then s else st.trees i }

/-- createPostingTree, `/repo/src/ruminsert.c:52-115`. The root is block 0 of the new tree. -/
def State.addTree (st : State V) (its : List (Item Datum)) : State V :=
  { st with trees := fun i => if i = st.ntrees then (createTree noStore its).1 else st.trees i, ntrees := st.ntrees + 1 }

def lastState (st : State V) (l : List (State V)) : State V := l.getLast?.getD st

/-- rumInsertItemPointers on a posting tree, `/repo/src/rumdatapage.c:1511-1547`. -/
def Ix.insertTree (ix : Ix V) (attnum : Nat) (st : State V) (t : Nat) (items : List (Item Datum)) : List (State V) × Bool :=
  let r := insertItems (ix.treeOps attnum) 0 items.length (st.trees t) items
  (r.1.map (st.setTree t), r.2)

/-- addItemPointersToLeafTuple, `/repo/src/ruminsert.c:255-332`: the states after each record, and the new tuple (`none`: error). -/
def Ix.addItems (ix : Ix V) (st : State V) (old : Ent V) (items : List (Item Datum)) : List (State V) × Option (Ent V) :=
  let oldItems := ix.readTuple old
  match ix.formTuple old.key (mergeItems (ix.ctx old.key.attnum).cmp items oldItems) with
  | some e => ([], some e)
  | none =>
    let st1 := st.addTree oldItems
    let r := ix.insertTree old.key.attnum st1 st.ntrees items
    (st1 :: r.1, if r.2 then ix.formTree old.key st.ntrees else none)

/-- The loop that counts the items for the first page of a new posting tree, `/repo/src/ruminsert.c:353-370`. -/
def Ix.firstPage (ix : Ix V) (attnum : Nat) : Iptr → Nat → Nat → List (Item Datum) → Nat
  | _, size, n, [] => if size ≥ dataCap then n - 1 else n
  | prev, size, n, it :: its =>
    if n > 0 ∧ ¬ size < dataCap then n - 1
    else ix.firstPage attnum it.iptr (checkPlace (ix.ctx attnum).cfg it prev size) (n + 1) its

/-- buildFreshLeafTuple, `/repo/src/ruminsert.c:342-410`. -/
def Ix.freshTuple (ix : Ix V) (st : State V) (k : AttKey V) (items : List (Item Datum)) : List (State V) × Option (Ent V) :=
  match ix.formTuple k items with
  | some e => ([], some e)
  | none =>
    let n := ix.firstPage k.attnum ⟨0, 0⟩ 0 0 items
    match ix.formTree k st.ntrees with
    | none => ([], none)
    | some e =>
      let st1 := st.addTree (items.take n)
      if items.length > n then
        let r := ix.insertTree k.attnum st1 st.ntrees (items.drop n)
        (st1 :: r.1, if r.2 then some e else none)
      else ([st1], some e)

/-- The search key of a descent. -/
def probe (k : AttKey V) : Ent V := ⟨k, 0, .tree 0⟩

/-- The end of rumEntryInsert, `/repo/src/ruminsert.c:479-482`: the new tuple goes to the leaf. -/
def Ix.putTuple (ix : Ix V) [Inhabited V] (st : State V) (path : List (Nat × Nat)) (r : List (State V) × Option (Ent V)) : List (State V) × Bool :=
  match r.2 with
  | none => (r.1, false)
  | some e =>
    let st' := lastState st r.1
    let v := insertValue ix.ops rootBlk st'.entry path [e]
    (r.1 ++ v.1.map (fun s => { st' with entry := s }), v.2.1)

/-- rumEntryInsert, `/repo/src/ruminsert.c:418-483`: the states after each record, and whether the insertion succeeded. -/
def Ix.entryInsert (ix : Ix V) [Inhabited V] (st : State V) (k : AttKey V) (items : List (Item Datum)) : List (State V) × Bool :=
  match findLeaf ix.ops st.entry rootBlk (probe k) st.entry.next rootBlk [] with
  | some ((b, off) :: up) =>
    let its := (st.entry.page b).items
    let f := ix.locate its (probe k)
    if f.1 then
      match its[f.2 - 1]? with
      | some e =>
        match e.post with
        | .tree t => ix.insertTree k.attnum st t items
        | .list _ _ => ix.putTuple st ((b, off) :: up) (ix.addItems st e items)
      | none => ([], false)
    else ix.putTuple st ((b, off) :: up) (ix.freshTuple st k items)
  | _ => ([], false)

/-- The rows stored under a key, as a scan reads them: descent and search on the leaf (startScanEntry, `/repo/src/rumget.c:590-700`), then the
posting list (`/repo/src/rumget.c:686-697`) or a forward scan of the posting tree. -/
def Ix.rowsOf (ix : Ix V) [Inhabited V] (st : State V) (k : AttKey V) : List (Item Datum) :=
  match findLeaf ix.ops st.entry rootBlk (probe k) st.entry.next rootBlk [] with
  | some ((b, _) :: _) =>
    let its := (st.entry.page b).items
    let f := ix.locate its (probe k)
    if f.1 then
      match its[f.2 - 1]? with
      | some e =>
        match e.post with
        | .tree t => contents (st.trees t) 0
        | .list _ _ => ix.readTuple e
      | none => []
    else []
  | _ => []

/-- A sequence of calls of rumEntryInsert, e.g. the loop of rumHeapTupleInsert, `/repo/src/ruminsert.c:789-811`: final state, success. -/
def Ix.insertAll (ix : Ix V) [Inhabited V] (st : State V) : List (AttKey V × List (Item Datum)) → State V × Bool
  | [] => (st, true)
  | (k, items) :: ops =>
    let r := ix.entryInsert st k items
    if r.2 then ix.insertAll (lastState st r.1) ops else (lastState st r.1, false)

end Rum.Index
