import Verif.IndexVacConc
import Verif.Collect
/-!
# Range, prefix and whole-index searches among running insertions, searches and VACUUM (collectMatchBitmap, `/repo/src/rumget.c:298-490`)

`Verif/Collect.lean` models collectMatchBitmap in an index that nobody changes. Here it runs among the backends and the VACUUM of `Verif/IndexVacConc.lean`. The search
descends to the leaf of its first key (`:572-597`), goes over the tuples of the leaf and on to the right neighbours. While it is on a page it has a share
lock on it. It unlocks the page when it goes to the right (rumStep, `/repo/src/rumbtree.c:228-230`), and while it reads the posting tree of a tuple
(`/repo/src/rumget.c:417-421`); then it locks the page again and looks for the tuple from where it was on (`:427-461`), maybe over several pages; if
the root, on which it was, is a leaf no more, it begins again (`:429-437`, `:598-612`). Posting trees are read as in `Verif/IndexConc.lean`.

Simplifications: those of `Verif/Collect.lean` (but for the one backend), `Verif/IndexConc.lean` and `Verif/VacConc.lean`. One step of a search is what it does between locking a
page of the entry tree and unlocking it; as it only reads the page, the steps of others on other pages in the meantime could as well come before or after.
-/
namespace Rum.Index
open Rum Rum.Codec Rum.Leaf Rum.Entry Rum.Tree Rum.Extract

variable {V : Type}

/-- Where a search is, between two visits to pages of the entry tree; `acc`: the items put into the sort so far. -/
inductive WPos (V : Type) where
  /-- On the way to the leaf of its first key. -/
  | down
  /-- About to lock page `b`, the right neighbour of the page it was on, `/repo/src/rumget.c:341`. -/
  | page (b : Nat) (acc : List (Item Datum))
  /-- Page `b` is unlocked; the posting tree of key `k`, which was at offset `off`, is being read, `:419-421`. -/
  | tree (k : AttKey V) (b off : Nat) (acc : List (Item Datum))
  /-- Looking for key `k` again; about to lock page `b`, the right neighbour of the page it was on, `:445`. -/
  | seek (k : AttKey V) (b : Nat) (acc : List (Item Datum))
  /-- collectMatchBitmap has returned `true`. -/
  | done (acc : List (Item Datum))
  /-- An error: "lost saved point in index", or a page that is not a leaf or has no tuples. -/
  | error

/-- A search: column and entry of the scan, and where it is. -/
structure Walker (V : Type) where
  attnum : Nat
  look : Look V
  pos : WPos V

/-- The first key. -/
def Walker.key (w : Walker V) : AttKey V := ⟨w.attnum, w.look.cat, w.look.key⟩

/-- The search has ended. -/
def Walker.over (w : Walker V) : Prop := match w.pos with
  | .done _ => True
  | .error => True
  | _ => False

/-- The loop of collectMatchBitmap on a locked page, `/repo/src/rumget.c:328-488`, from a tuple at offset `off` on: where the search is when it unlocks the page, and the posting
tree it goes to with its key. -/
def Ix.walkFrom (ix : Ix V) (attnum : Nat) (m : Mode V) (b : Nat) (right : Option Nat) :
    List (Ent V) → Nat → List (Item Datum) → WPos V × Option (AttKey V × Nat)
  | [], _, acc => match right with
    | some r => (.page r acc, none)
    | none => (.done acc, none)
  | e :: es, off, acc => match judge attnum m e.key with
    | .stop => (.done acc, none)
    | .skip => ix.walkFrom attnum m b right es (off + 1) acc
    | .take => match e.post with
      | .tree t => (.tree e.key b off acc, some (e.key, t))
      | .list _ _ => ix.walkFrom attnum m b right es (off + 1) (acc ++ ix.readTuple e)

/-- The loop that looks for the tuple of key `k` again, `/repo/src/rumget.c:440-461`, on a locked page from a tuple at offset `off` on; when it is found the
search goes on behind it. -/
def Ix.walkSeek (ix : Ix V) [Inhabited V] (attnum : Nat) (m : Mode V) (k : AttKey V) (b : Nat) (right : Option Nat) :
    List (Ent V) → Nat → List (Item Datum) → WPos V × Option (AttKey V × Nat)
  | [], _, acc => match right with
    | some r => (.seek k r acc, none)
    | none => (.error, none)
  | e :: es, off, acc =>
    if e.key.attnum ≠ attnum then (.error, none)
    else if ix.cmp e (probe k) = .eq then ix.walkFrom attnum m b right es (off + 1) acc
    else ix.walkSeek attnum m k b right es (off + 1) acc

/-- The search goes into a posting tree (scanPostingTree, `/repo/src/rumget.c:217-282`). -/
def Net.enter (n : Net V) (i : Nat) : Option (AttKey V × Nat) → Net V
  | none => n
  | some (k, t) => (n.setT t i (.down 0)).setJ i (.read k false)

/-- The visit to the leaf the descent has come to, `/repo/src/rumget.c:572-597` and `317-323`. -/
def Ix.walkLeaf (ix : Ix V) [Inhabited V] (n : Net V) (i b : Nat) (w : Walker V) : Net V × WPos V :=
  let p := n.st.entry.page b
  let off := (ix.locate p.items (probe w.key)).2
  let r := if w.look.void then (.done [], none) else ix.walkFrom w.attnum w.look.mode b p.right (p.items.drop (off - 1)) off []
  ((n.quit i .idle).enter i r.2, r.1)

/-- A page that rumStep accepts (`/repo/src/rumbtree.c:232-243`) and that has a first tuple. -/
def goodPage (p : Tree.Page (Ent V)) : Bool := p.leaf && !p.items.isEmpty

/-- The visit to a right neighbour, `/repo/src/rumget.c:341-488`. -/
def Ix.walkPage (ix : Ix V) (n : Net V) (i b : Nat) (w : Walker V) (acc : List (Item Datum)) : Net V × WPos V :=
  let p := n.st.entry.page b
  let r := if goodPage p then ix.walkFrom w.attnum w.look.mode b p.right p.items 1 acc else (.error, none)
  (n.enter i r.2, r.1)

/-- Back on the page after a posting tree was read, `/repo/src/rumget.c:427-461`. -/
def Ix.walkBack (ix : Ix V) [Inhabited V] (n : Net V) (i b off : Nat) (w : Walker V) (k : AttKey V) (acc : List (Item Datum)) : Net V × WPos V :=
  let p := n.st.entry.page b
  if p.leaf then
    let r := ix.walkSeek w.attnum w.look.mode k b p.right (p.items.drop (off - 1)) off acc
    ((n.setJ i .idle).enter i r.2, r.1)
  else ((n.setE i (descent w.key)).setJ i (.read w.key false), .down)

/-- The visit to a right neighbour when looking for key `k` again, `/repo/src/rumget.c:445-461`. -/
def Ix.walkOn (ix : Ix V) [Inhabited V] (n : Net V) (i b : Nat) (w : Walker V) (k : AttKey V) (acc : List (Item Datum)) : Net V × WPos V :=
  let p := n.st.entry.page b
  let r := if goodPage p then ix.walkSeek w.attnum w.look.mode k b p.right p.items 1 acc else (.error, none)
  (n.enter i r.2, r.1)

/-- The index with its backends, VACUUM, and the searches of collectMatchBitmap under way or ended. -/
structure WNet (V : Type) where
  v : VNet V
  walk : Nat → Option (Walker V)

/-- One step of the search of backend `i`. -/
def WNet.go (z : WNet V) (i : Nat) (w : Walker V) (r : Net V × WPos V) : WNet V :=
  ⟨⟨r.1, z.v.vac⟩, fun j => if j = i then some { w with pos := r.2 } else z.walk j⟩

end Rum.Index
