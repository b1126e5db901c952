import Verif.PostingTree
import Verif.VacuumList
/-!
# VACUUM of a posting tree (`/repo/src/rumvacuum.c:214-558`): cleaning the leaves, deleting empty pages

The process holds a cleanup lock on the root (`/repo/src/rumvacuum.c:232`), so no insertion runs meanwhile. As in `Tree`, every
write-ahead-log record is one atomic change of the store; a run is the list of the stores after each of its records.
-/
namespace Rum.Tree
open Rum Rum.Codec Rum.Leaf

variable {α : Type}

/-- The leaf case of rumVacuumPostingTreeLeaves, `/repo/src/rumvacuum.c:239-272`; `vac` is rumVacuumPostingList on the items of a page.
The record written, if any, and "has a void page". -/
def vacLeaf (vac : List α → List α) (s : Store α) (isRoot : Bool) (b : Nat) : List (Store α) × Bool :=
  let p := s.page b
  let its := vac p.items
  if p.items.length = its.length then ([], false)
  else ([s.set b { p with items := its }], !isRoot && its.isEmpty)

/-- The loop over the downlinks of an interior page, `/repo/src/rumvacuum.c:278-288`; the downlinks do not change meanwhile. -/
def vacKids (f : Store α → Nat → List (Store α) × Bool) : Store α → List Nat → List (Store α) × Bool
  | _, [] => ([], false)
  | s, c :: cs =>
    let r := f s c
    let t := vacKids f (lastStore s r.1) cs
    (r.1 ++ t.1, r.2 || t.2)

/-- rumVacuumPostingTreeLeaves, `/repo/src/rumvacuum.c:214-309`, with a bound on the depth. -/
def vacLeaves (vac : List α → List α) : Nat → Store α → Bool → Nat → List (Store α) × Bool
  | 0, _, _, _ => ([], false)
  | n + 1, s, isRoot, b =>
    if (s.page b).leaf then vacLeaf vac s isRoot b
    else vacKids (fun s c => vacLeaves vac n s false c) s ((s.page b).downs.map Prod.snd)

/-- maxoff of a page: the number of its items or downlinks. -/
def Page.maxoff (p : Page α) : Nat := if p.leaf then p.items.length else p.downs.length

/-- rumDeletePage, `/repo/src/rumvacuum.c:314-447`: `none` if nothing is deleted. (The links are checked again after locking; if
they do not agree the code starts over, `/repo/src/rumvacuum.c:374-392`; without concurrent changes it then never ends, modelled as `none`.)
The record: the neighbours are linked to each other, the downlink is removed (RumPageDeletePostingItem,
`/repo/src/rumdatapage.c:753-775`), the flags of the page become RUM_DELETED alone, its links and contents stay. -/
def deletePage (s : Store α) (d parent myoff : Nat) : Option (Store α) :=
  match (s.page d).left, (s.page d).right with
  | some l, some r =>
    if (s.page l).right = some d ∧ (s.page r).left = some d ∧ (s.page d).maxoff < 1 then
      let s1 := s.set l { s.page l with right := some r }
      let s2 := s1.set r { s1.page r with left := some l }
      let s3 := s2.set parent { s2.page parent with downs := (s2.page parent).downs.eraseIdx (myoff - 1) }
      some (s3.set d { s3.page d with deleted := true, leaf := false })
    else none
  | _, _ => none

/-- The loop over the downlinks of page `b` in rumScanToDelete, `/repo/src/rumvacuum.c:495-504`: `i` stays when a child was deleted.
`n` bounds the number of rounds. -/
def delLoop (f : Store α → Nat → Nat → List (Store α) × Bool) (b : Nat) : Nat → Store α → Nat → List (Store α)
  | 0, _, _ => []
  | n + 1, s, i =>
    match (s.page b).downs[i - 1]? with
    | none => []
    | some d =>
      let r := f s d.2 i
      r.1 ++ delLoop f b n (lastStore s r.1) (if r.2 then i else i + 1)

/-- rumScanToDelete, `/repo/src/rumvacuum.c:461-520`, below the root: page `b`, child number `myoff` of `parent`. -/
def scanToDelete : Nat → Store α → Nat → Nat → Nat → List (Store α) × Bool
  | 0, _, _, _, _ => ([], false)
  | n + 1, s, b, parent, myoff =>
    let ts := if (s.page b).leaf then [] else
      delLoop (fun s c i => scanToDelete n s c b i) b (s.page b).downs.length s 1
    let s' := lastStore s ts
    if (s'.page b).maxoff < 1 then
      match deletePage s' b parent myoff with
      | some t => (ts ++ [t], true)
      | none => (ts, false)
    else (ts, false)

/-- rumScanToDelete on the root. -/
def scanRoot (s : Store α) (root : Nat) : List (Store α) :=
  if (s.page root).leaf then [] else
    delLoop (fun s c i => scanToDelete s.next s c root i) root (s.page root).downs.length s 1

/-- rumVacuumPostingTree, `/repo/src/rumvacuum.c:523-558`. -/
def vacuumTree (vac : List α → List α) (s : Store α) (root : Nat) : List (Store α) :=
  let r := vacLeaves vac s.next s true root
  if r.2 then r.1 ++ scanRoot (lastStore s r.1) root else r.1

/-- rumVacuumPostingList on a leaf page, `/repo/src/rumvacuum.c:244-263`: the bytes of the page are rewritten, the items are read back from
them. -/
def dataVac (c : Cfg) (dead : Iptr → Bool) (its : List (Item Datum)) : List (Item Datum) :=
  match buildPage c its with
  | none => its
  | some p =>
    match vacuumPostingList c dead p.data p.maxoff with
    | some (n, some out) => decodePage c ⟨out, n, []⟩
    | _ => its

end Rum.Tree
