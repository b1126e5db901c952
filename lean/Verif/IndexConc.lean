import Verif.EntryTree
import Verif.RowInsert
import Verif.Conc
import Verif.PostingScan
/-!
# Model of concurrent row insertions and searches on the whole index (`/repo/src/ruminsert.c`, `/repo/src/rumget.c`, `/repo/src/rumbtree.c`)

Any number of backends insert rows and search for keys at the same time. One step of a backend is one visit to a page of the entry tree or of a
posting tree, as in `Verif/Conc.lean`: between two steps the other backends may do anything except visit a page that is kept locked by an
unfinished split. An insertion puts the entries of its row into the index one after the other (rumHeapTupleInsert, `/repo/src/ruminsert.c:789-811`):
each begins with a descent in the entry tree; on the leaf it adds to the posting list of the key, makes a new tuple, or, if the key has a posting
tree, unlocks the leaf and goes on in that tree (rumEntryInsert, `/repo/src/ruminsert.c:418-483`). A search for a key descends to the leaf and
copies the posting list, or unlocks the leaf and goes on in the posting tree (startScanEntry, `/repo/src/rumget.c:569-700`).

Simplifications, beside those of `Verif/Conc.lean` and `Verif/EntryTree.lean`: a posting list that no longer fits in its tuple is turned into a
posting tree (addItemPointersToLeafTuple) in the visit to the leaf, which stays locked, as in the code; nobody else can reach the new tree before the
tuple is changed. Predicate locks are left out. A search in the code may have several keys and go on with one while another waits; as nothing is
locked between its steps, it is several backends here.
-/
namespace Rum.Index
open Rum Rum.Codec Rum.Leaf Rum.Entry Rum.Tree

variable {V : Type}

/-- What a backend has been asked to do. -/
inductive Job (V : Type) where
  | idle
  /-- Insertion of a row: the entries still to be inserted. -/
  | insert (l : List (AttKey V × Item Datum))
  | inserted
  /-- The insertion ended with an error, or was cancelled. -/
  | failed
  /-- Search for the rows under a key; item by item, or whole pages (collectMatchBitmap with scanPostingTree, `/repo/src/rumget.c:217-282`). -/
  | read (k : AttKey V) (cursor : Bool)
  /-- The search has ended with these items. -/
  | answer (k : AttKey V) (cursor : Bool) (rows : List (Item Datum))

/-- Not at work. -/
def Job.free : Job V → Bool
  | .insert _ | .read _ _ => false
  | _ => true

/-- The index with its backends: what each is doing in the entry tree, in each posting tree, and on the whole. -/
structure Net (V : Type) where
  st : State V
  eth : Nat → Thread (Ent V)
  tth : Nat → Nat → Thread (Item Datum)
  job : Nat → Job V

def Net.setE (n : Net V) (i : Nat) (th : Thread (Ent V)) : Net V := { n with eth := fun j => if j = i then th else n.eth j }
def Net.setT (n : Net V) (t i : Nat) (th : Thread (Item Datum)) : Net V :=
  { n with tth := fun u j => if u = t ∧ j = i then th else n.tth u j }
def Net.setJ (n : Net V) (i : Nat) (b : Job V) : Net V := { n with job := fun j => if j = i then b else n.job j }

/-- The descent to the leaf of a key begins at the root. -/
def descent (k : AttKey V) : Thread (Ent V) := .ins [probe k] rootBlk []

/-- The loop over the entries of a row, `/repo/src/ruminsert.c:789-811`: the next entry, or the end. -/
def Net.next (n : Net V) (i : Nat) : List (AttKey V × Item Datum) → Net V
  | [] => (n.setE i .idle).setJ i .inserted
  | (k, it) :: l => (n.setE i (descent k)).setJ i (.insert ((k, it) :: l))

/-- An entry is in the index: on to the next one. -/
def Net.goOn (n : Net V) (i : Nat) : Net V :=
  match n.job i with
  | .insert (_ :: l) => n.next i l
  | _ => n

/-- A backend leaves everything as it is and gives up its locks. -/
def Net.quit (n : Net V) (i : Nat) (b : Job V) : Net V :=
  { (n.setE i .idle).setJ i b with tth := fun u j => if j = i then .idle else n.tth u j }

/-- An error: everything stays as it is. -/
def Net.fail (n : Net V) (i : Nat) : Net V := n.quit i .failed

/-- The descent has come to the leaf (rumFindLeafPage, `/repo/src/rumbtree.c:120-203`): the page is a leaf and the key is not to the right of it. -/
def Ix.stops (ix : Ix V) [Inhabited V] (s : Store (Ent V)) (k : AttKey V) (b : Nat) : Bool :=
  (s.page b).leaf && !(b ≠ rootBlk && (s.page b).right.isSome && ix.cmp (probe k) (s.page b).bound == .gt)

/-- rumInsertValue on the leaf, `/repo/src/rumbtree.c:388-597`: the tuple is put on the page, or the page is split; then the split page stays
locked until the parent has its downlink. -/
def leafPut (o : Ops (Ent V)) (s : Store (Ent V)) (b : Nat) (up : List (Nat × Nat)) (e : Ent V) :
    Store (Ent V) × Thread (Ent V) :=
  let p := s.page b
  if o.roomLeaf p.items [e] then (s.set b { p with items := (o.place p.items p.hi [e]).1 }, .inserted)
  else
    let c := o.cut p.items [e]
    let key := (c.1.getLast?).getD o.zero
    match up with
    | [] => (splitRoot o s b c.1 c.2.1 [] [] key, .inserted)
    | (q, off) :: up' => (splitAt s b c.1 c.2.1 [] [] key, .walk ⟨[], b, key, s.next⟩ q off up')

/-- What a visit to a page of the entry tree leaves: an insertion that is complete goes on with its next entry, one that lost its path ends with
an error. -/
def Net.settleE (n : Net V) (i : Nat) : Net V :=
  match n.eth i with
  | .inserted => n.goOn i
  | .lost => n.fail i
  | _ => n

/-- The end of rumEntryInsert, `/repo/src/ruminsert.c:479-482`: `r` is what addItemPointersToLeafTuple or buildFreshLeafTuple gave. -/
def Ix.putAt (ix : Ix V) [Inhabited V] (n : Net V) (i b : Nat) (up : List (Nat × Nat)) (r : List (State V) × Option (Ent V)) : Net V :=
  match r.2 with
  | none => { n with st := lastState n.st r.1 }.fail i
  | some e =>
    let st' := lastState n.st r.1
    let v := leafPut ix.ops st'.entry b up e
    ({ n with st := { st' with entry := v.1 } }.setE i v.2).settleE i

/-- An insertion on the leaf, `/repo/src/ruminsert.c:439-482`. -/
def Ix.leafInsert (ix : Ix V) [Inhabited V] (n : Net V) (i b : Nat) (up : List (Nat × Nat)) (k : AttKey V) (it : Item Datum) : Net V :=
  let its := (n.st.entry.page b).items
  let f := ix.locate its (probe k)
  if f.1 then
    match its[f.2 - 1]? with
    | some e =>
      match e.post with
      | .tree t => (n.setE i .idle).setT t i (.ins [it] 0 [])
      | .list _ _ => ix.putAt n i b up (ix.addItems n.st e [it])
    | none => n.fail i
  else ix.putAt n i b up (ix.freshTuple n.st k [it])

/-- A search on the leaf, `/repo/src/rumget.c:615-697`. -/
def Ix.leafRead (ix : Ix V) [Inhabited V] (n : Net V) (i b : Nat) (k : AttKey V) (c : Bool) : Net V :=
  let its := (n.st.entry.page b).items
  let f := ix.locate its (probe k)
  if f.1 then
    match its[f.2 - 1]? with
    | some e =>
      match e.post with
      | .tree t => (n.setE i .idle).setT t i (if c then .opening 0 else .down 0)
      | .list _ _ => (n.setE i .idle).setJ i (.answer k c (ix.readTuple e))
    | none => (n.setE i .idle).setJ i (.answer k c [])
  else (n.setE i .idle).setJ i (.answer k c [])

/-- One visit of a backend to a page of the entry tree. -/
def Ix.visitEntry (ix : Ix V) [Inhabited V] (n : Net V) (i : Nat) : Net V :=
  let s := n.st.entry
  let v := act ix.ops (fun _ _ _ => none) rootBlk s (n.eth i)
  let go := ({ n with st := { n.st with entry := v.1 } }.setE i v.2).settleE i
  match n.eth i with
  | .ins _ b up =>
    match n.job i with
    | .insert ((k, it) :: _) => if ix.stops s k b then ix.leafInsert n i b up k it else go
    | .read k c => if ix.stops s k b then ix.leafRead n i b k c else go
    | _ => go
  | _ => go

/-- The column whose posting tree a backend works in. -/
def Job.attnum : Job V → Nat
  | .insert ((k, _) :: _) => k.attnum
  | .read k _ => k.attnum
  | _ => 0

/-- What a visit to a page of a posting tree leaves. -/
def Net.settleT (n : Net V) (t i : Nat) : Net V :=
  match n.tth t i with
  | .inserted => (n.setT t i .idle).goOn i
  | .lost => n.fail i
  | .scanned acc | .ended acc => match n.job i with
    | .read k c => (n.setT t i .idle).setJ i (.answer k c acc)
    | _ => n
  | _ => n

/-- One visit of a backend to a page of posting tree `t`. -/
def Ix.visitTree (ix : Ix V) (n : Net V) (t i : Nat) : Net V :=
  let a := (n.job i).attnum
  let v := act (ix.treeOps a) (seekData (ix.ctx a)) 0 (n.st.trees t) (n.tth t i)
  ({ n with st := n.st.setTree t v.1 }.setT t i v.2).settleT t i

/-- The pages of the entry tree a visit locks: the page visited, and if it is split its right neighbour. -/
def Ix.needsE (ix : Ix V) [Inhabited V] (n : Net V) (i : Nat) : List Nat :=
  match visit rootBlk (n.eth i) with
  | none => []
  | some b => b :: (if (ix.visitEntry n i).st.entry.next = n.st.entry.next then [] else (n.st.entry.page b).right.toList)

/-- The pages of posting tree `t` a visit locks. -/
def Ix.needsT (ix : Ix V) (n : Net V) (t i : Nat) : List Nat :=
  needs (ix.treeOps (n.job i).attnum) (seekData (ix.ctx (n.job i).attnum)) 0 (n.st.trees t) (n.tth t i)

/-- The entries of a row with their items in the order ruminsert inserts them, `/repo/src/ruminsert.c:776-811, 858-862`. (An entry with additional
info in a column without an attribute for it is an error in the code, lines 798-806; the rows considered here have none, see `RowOK`.) -/
def Ix.entries (ix : Ix V) [Inhabited V] (rc : RowCfg V) (r : Row V) : List (AttKey V × Item Datum) :=
  ((List.range rc.natts).map (· + 1)).flatMap (fun a => (ix.colEntries rc a r).map (fun o => (outKey a o, ⟨r.tid, o.info⟩)))

end Rum.Index
