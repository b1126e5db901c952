import Verif.Tree
/-!
# Model of concurrent access to a posting tree (`/repo/src/rumbtree.c`, `/repo/src/rumget.c`)

Any number of backends insert and scan at the same time. One step of a backend is one visit to a page: from locking it to unlocking it, or to
the change of the page it was locked for. Between two visits the other backends may do anything, except visit a page this backend keeps
locked: an insertion that has split a page keeps that page locked until it has locked the parent to be changed
(`/repo/src/rumbtree.c:599-640`).

Simplifications. A visit is atomic (the page is locked all the time; share and exclusive locks are not distinguished, which only forbids
simultaneous reads). The locks on the new pages and on the right neighbour of a split page are held within one visit
(`/repo/src/rumbtree.c:518-597`): the neighbour must not be locked by another backend. The parent is changed in the same visit in which the
downlink was found; in the code the child is unlocked before that (`:637`), but the parent stays locked. Pins, buffers, VACUUM, and predicate
locks are not modelled.
-/
namespace Rum.Tree
open Rum Rum.Entry

variable {α : Type}

/-- An insertion that has split the page `child`, kept locked, into `child` and the new page `r`, and looks for the downlink to `child`; `key`
is the new bound of `child`, `batch` what is still to be inserted afterwards. -/
structure Pending (α : Type) where
  batch : List α
  child : Nat
  key : α
  r : Nat

/-- What a backend is doing; the page it will visit next. -/
inductive Thread (α : Type) where
  /-- Nothing. -/
  | idle
  /-- Descent of an insertion (rumFindLeafPage): next page, path so far. -/
  | ins (batch : List α) (b : Nat) (up : List (Nat × Nat))
  /-- Search for the parent, to the right from the remembered parent (`/repo/src/rumbtree.c:604-635`): next page, expected offset, path above. -/
  | walk (w : Pending α) (p off : Nat) (up : List (Nat × Nat))
  /-- rumFindParents at the root, `/repo/src/rumbtree.c:295-316`. -/
  | top (w : Pending α)
  /-- rumFindParents below the root, `/repo/src/rumbtree.c:318-358`: next page; where the level below begins, once known. -/
  | level (w : Pending α) (p : Nat) (lm : Option Nat)
  /-- The insertion has ended with all items inserted. -/
  | inserted
  /-- The insertion has ended with the error "Lost path". -/
  | lost
  /-- scanPostingTree, `/repo/src/rumget.c:217-282`: descent to the leftmost leaf. -/
  | down (b : Nat)
  /-- scanPostingTree on the leaves: next page, items seen. -/
  | scan (b : Nat) (acc : List α)
  | scanned (acc : List α)
  /-- startScanEntry, `/repo/src/rumget.c:640-683`: descent to the leftmost leaf. -/
  | opening (b : Nat)
  /-- entryGetNextItem, `/repo/src/rumget.c:918-1028`: page in use, rest of the copied list, current item, items delivered so far. -/
  | cursor (b : Nat) (list : List α) (cur : α) (acc : List α)
  /-- entryGetNextItem moving to the next page, `/repo/src/rumget.c:969-1011`. -/
  | next (b : Nat) (cur : α) (acc : List α)
  | ended (acc : List α)

/-- The loop of rumInsertItemPointers, `/repo/src/rumdatapage.c:1516-1546`: the next descent, or the end. -/
def again (root : Nat) : List α → Thread α
  | [] => .inserted
  | x :: xs => .ins (x :: xs) root []

/-- One visit of a descending insertion, `/repo/src/rumbtree.c:120-203` and, on the leaf, `/repo/src/rumdatapage.c:1519-1545` with
`/repo/src/rumbtree.c:388-597`. -/
def actIns (o : Ops α) (root : Nat) (s : Store α) (x : α) (xs : List α) (b : Nat) (up : List (Nat × Nat)) : Store α × Thread α :=
  let p := s.page b
  if b ≠ root ∧ p.right.isSome ∧ o.cmp x p.bound = .gt then (s, .ins (x :: xs) (p.right.getD 0) up)
  else if p.leaf then
    if o.found p.items x then (s, again root xs)
    else if o.roomLeaf p.items (x :: xs) then
      let r := o.place p.items p.hi (x :: xs)
      (s.set b { p with items := r.1 }, again root r.2)
    else
      let c := o.cut p.items (x :: xs)
      let key := (c.1.getLast?).getD o.zero
      match up with
      | [] => (splitRoot o s b c.1 c.2.1 [] [] key, again root c.2.2)
      | (q, off) :: up' => (splitAt s b c.1 c.2.1 [] [] key, .walk ⟨c.2.2, b, key, s.next⟩ q off up')
  else
    let off := o.locate p.right.isNone (p.downs.map Prod.fst) x
    match p.downs[off - 1]? with
    | some d => (s, .ins (x :: xs) d.2 ((b, off) :: up))
    | none => (s, .lost)

/-- The downlink to `w.child` was found on page `b` at offset `off`: the change of page `b`, `/repo/src/rumbtree.c:388-597`. -/
def link (o : Ops α) (root : Nat) (s : Store α) (w : Pending α) (b off : Nat) (up : List (Nat × Nat)) : Store α × Thread α :=
  let p := s.page b
  let downs := addDown p.downs off w.key w.child w.r
  if o.roomInner p.downs w.key then (s.set b { p with downs := downs }, again root w.batch)
  else
    let k := o.sep p.right.isNone downs
    let key' := ((downs.take k).getLast?.map Prod.fst).getD o.zero
    match up with
    | [] => (splitRoot o s b [] [] (downs.take k) (downs.drop k) key', again root w.batch)
    | (q, off') :: up' => (splitAt s b [] [] (downs.take k) (downs.drop k) key', .walk ⟨w.batch, b, key', s.next⟩ q off' up')

/-- One visit of scanPostingTree to a leaf: all its items, and the right link read under the same lock (`/repo/src/rumget.c:244-275`). -/
def actScan (s : Store α) (b : Nat) (acc : List α) : Store α × Thread α :=
  (s, match (s.page b).right with
    | some r => .scan r (acc ++ (s.page b).items)
    | none => .scanned (acc ++ (s.page b).items))

/-- One visit of a backend. `seek` is scanPage in the forward direction, exclusive (`/repo/src/rumget.c:1797-1918`): from the items of the page,
its right bound and the current item, the loaded list from the position found on, `none` if there is nothing beyond. -/
def act (o : Ops α) (seek : List α → Option α → α → Option (List α)) (root : Nat) (s : Store α) : Thread α → Store α × Thread α
  | .ins (x :: xs) b up => actIns o root s x xs b up
  | .walk w p off up =>
    match findChildPtr ((s.page p).downs.map Prod.snd) w.child off with
    | k + 1 => link o root s w p (k + 1) up
    | 0 => (s, match (s.page p).right with
      | some q => .walk w q 0 up
      | none => .top w)
  | .top w =>
    match findChildPtr ((s.page root).downs.map Prod.snd) w.child 0 with
    | k + 1 => link o root s w root (k + 1) []
    | 0 => (s, match (s.page root).downs.head? with
      | some d => .level w d.2 none
      | none => .lost)
  | .level w p lm =>
    if (s.page p).leaf then (s, .lost)
    else
      match findChildPtr ((s.page p).downs.map Prod.snd) w.child 0 with
      | k + 1 => link o root s w p (k + 1) [(root, 0)]
      | 0 => (s, match (s.page p).right, lm.or ((s.page p).downs.head?.map Prod.snd) with
        | some q, lm' => .level w q lm'
        | none, some q => .level w q none
        | none, none => .lost)
  | .down b =>
    if (s.page b).leaf then actScan s b []
    else (s, match (s.page b).downs.head? with
      | some d => .down d.2
      | none => .down b)
  | .scan b acc => actScan s b acc
  | .opening b =>
    if (s.page b).leaf then
      (s, match (s.page b).items with
        | [] => .ended []
        | y :: ys => .cursor b ys y [y])
    else (s, match (s.page b).downs.head? with
      | some d => .opening d.2
      | none => .opening b)
  | .cursor b (y :: ys) _ acc => (s, .cursor b ys y (acc ++ [y]))
  | .cursor b [] cur acc =>
    if (s.page b).leaf then
      (s, match seek (s.page b).items (s.page b).hi cur with
        | some (y :: ys) => .cursor b ys y (acc ++ [y])
        | _ => match (s.page b).right with
          | some r => .next r cur acc
          | none => .ended acc)
    else (s, .cursor b [] cur acc)
  | .next b cur acc =>
    (s, match (s.page b).items.dropWhile (fun it => o.cmp cur it != .gt) with
      | y :: ys => .cursor b ys y (acc ++ [y])
      | [] => .cursor b [] cur acc)
  | th => (s, th)

/-- The page the next step of a backend visits. -/
def visit (root : Nat) : Thread α → Option Nat
  | .ins _ b _ => some b
  | .walk _ p _ _ => some p
  | .top _ => some root
  | .level _ p _ => some p
  | .down b => some b
  | .scan b _ => some b
  | .opening b => some b
  | .cursor b [] _ _ => some b
  | .next b _ _ => some b
  | _ => none

/-- The page a backend keeps locked between its steps. -/
def holds : Thread α → Option Nat
  | .walk w _ _ _ => some w.child
  | .top w => some w.child
  | .level w _ _ => some w.child
  | _ => none

/-- The pages a step locks: the page visited, and if it is split its right neighbour. -/
def needs (o : Ops α) (seek : List α → Option α → α → Option (List α)) (root : Nat) (s : Store α) (th : Thread α) : List Nat :=
  match visit root th with
  | none => []
  | some b => b :: (if (act o seek root s th).1.next = s.next then [] else (s.page b).right.toList)

/-- The tree, and the backends by number. -/
structure Sys (α : Type) where
  store : Store α
  th : Nat → Thread α

def Sys.put (y : Sys α) (i : Nat) (t : Thread α) : Sys α := { y with th := fun j => if j = i then t else y.th j }

/-- Backend `i` makes a step: none of the pages it needs is kept locked by another backend. -/
def Acts (o : Ops α) (seek : List α → Option α → α → Option (List α)) (root : Nat) (i : Nat) (y z : Sys α) : Prop :=
  (∀ j, j ≠ i → ∀ c, holds (y.th j) = some c → c ∉ needs o seek root y.store (y.th i)) ∧
  z = ({ y with store := (act o seek root y.store (y.th i)).1 } : Sys α).put i (act o seek root y.store (y.th i)).2

/-- A finished or idle backend. -/
def Thread.free : Thread α → Bool
  | .idle | .inserted | .lost | .scanned _ | .ended _ => true
  | _ => false

/-- What a backend may be asked to do. -/
inductive Op (α : Type) where
  | insert (batch : List α)
  | scan
  | cursor

def Op.start (root : Nat) : Op α → Thread α
  | .insert b => again root b
  | .scan => .down root
  | .cursor => .opening root

end Rum.Tree
