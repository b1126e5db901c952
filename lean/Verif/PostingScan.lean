import Verif.PostingTree
import Verif.ScanPage
import Verif.Conc
/-!
# Scans of posting trees among concurrent insertions: scanPage on the pages of the tree
-/
namespace Rum.Tree
open Rum Rum.Codec Rum.Leaf

/-- scanPage forward and exclusive, as entryGetNextItem calls it (`/repo/src/rumget.c:945`), on the bytes of the page: the part of the loaded
list from the found position on, `none` if scanPage returns false. -/
def seekData (x : Ctx) (its : List (Item Datum)) (hi : Option (Item Datum)) (cur : Item Datum) : Option (List (Item Datum)) :=
  match buildPage x.cfg its with
  | some p => match scanPage x p hi ⟨true, cur, false⟩ with
    | some (.hit l i) => some (l.drop i)
    | _ => none
  | none => none

end Rum.Tree
