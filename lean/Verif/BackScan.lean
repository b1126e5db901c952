import Verif.PostingScan
/-!
# Backward scans of a posting tree among concurrent insertions (`/repo/src/rumget.c`)

A backward scan only reads; one step is one page visit, as in `Conc`. Between two steps the other backends may do anything, except visit a page
kept locked.
-/
namespace Rum.Tree
open Rum Rum.Codec Rum.Leaf Rum.Entry

/-- A backward cursor: where it is, what it has delivered so far. -/
inductive Back where
  /-- startScanEntry, `/repo/src/rumget.c:642-683`: descent to the leaf where the scan starts. -/
  | opening (b : Nat)
  /-- entryGetNextItem, `/repo/src/rumget.c:918-949`: page in use, rest of the copied list (in the order of delivery), current item. -/
  | cursor (b : Nat) (list : List (Item Datum)) (cur : Item Datum) (acc : List (Item Datum))
  /-- entryGetNextItem moving to the left sibling, `/repo/src/rumget.c:974-1026`: the left link was read on the page before. -/
  | prev (b : Nat) (cur : Item Datum) (acc : List (Item Datum))
  | ended (acc : List (Item Datum))
  /-- An item was read outside of the loaded list. -/
  | invalid

/-- The page the next step visits. -/
def Back.visit : Back → Option Nat
  | .opening b => some b
  | .cursor b [] _ _ => some b
  | .prev b _ _ => some b
  | _ => none

/-- The start of the delivery from a loaded list. -/
def Back.load (b : Nat) (acc : List (Item Datum)) : List (Item Datum) → Option Back
  | y :: ys => some (.cursor b ys y (acc ++ [y]))
  | [] => none

/-- One step of a backward cursor. `mark`: the start position (useMarkAddInfo), `none`: from the end. The descent is rumFindLeafPage: with a
mark it moves right as needed, without (fullScan) it takes the last downlink and never moves right (`/repo/src/rumbtree.c:153`,
`/repo/src/rumdatapage.c:447-455`). Position in the first page: setListPositionScanEntry, `/repo/src/rumget.c:495-541`, the last item not beyond
the mark. On the left sibling everything is delivered, without a search for the position (`/repo/src/rumget.c:1000-1018`). -/
def actBack (x : Ctx) (root : Nat) (mark : Option (Item Datum)) (s : Store (Item Datum)) : Back → Back
  | .opening b =>
    let p := s.page b
    match mark with
    | some m =>
      if b ≠ root ∧ p.right.isSome ∧ x.cmp m p.bound = .gt then .opening (p.right.getD 0)
      else if p.leaf then (Back.load b [] ((p.items.takeWhile (fun it => x.cmp m it != .lt)).reverse)).getD (.ended [])
      else match p.downs[locateData x.cmp (p.downs.map Prod.fst) m - 1]? with
        | some d => .opening d.2
        | none => .invalid
    | none =>
      if p.leaf then (Back.load b [] p.items.reverse).getD .invalid
      else match p.downs.getLast? with
        | some d => .opening d.2
        | none => .invalid
  | .cursor b (y :: ys) _ acc => .cursor b ys y (acc ++ [y])
  | .cursor b [] cur acc =>
    let p := s.page b
    if p.leaf then
      match buildPage x.cfg p.items with
      | some q => match scanPage x q p.hi ⟨false, cur, false⟩ with
        | some (.hit l i) => (Back.load b acc ((l.take (i + 1)).reverse)).getD .invalid
        | some .miss => match p.left with
          | some l => .prev l cur acc
          | none => .ended acc
        | _ => .invalid
      | none => .invalid
    else .cursor b [] cur acc
  | .prev b _ acc => (Back.load b acc (s.page b).items.reverse).getD .invalid
  | th => th

end Rum.Tree
