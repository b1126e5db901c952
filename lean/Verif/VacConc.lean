import Verif.Conc
import Verif.TreeVacuum
/-!
# VACUUM of a posting tree among running scans and insertions (`/repo/src/rumvacuum.c:214-558`)

rumVacuumPostingTreeLeaves takes a cleanup lock on the root (`/repo/src/rumvacuum.c:232`): it waits until no other process has the root pinned, and
keeps the root locked to the end of the leaves pass, and of the deletion pass if there is one (`:290-301`, `:557`). An insertion keeps the root
pinned from its first visit to its end (`freeRumBtreeStack` at the end of rumInsertValue), so no insertion is under way on this tree meanwhile and
none gets past the root; a scan past the root goes on. A page is deleted only when nobody else has it pinned (ConditionalLockBufferForCleanup,
`:358`, and otherwise `goto restart`, `:364`): the record waits. As nothing else writes to the tree meanwhile, the records VACUUM will write are
determined when it gets the lock.

Simplifications: the exclusive locks VACUUM keeps on interior pages between two records are not modelled, nor is the error or cancel of a VACUUM in
the middle. A descending scan has nothing pinned between two pages (`/repo/src/rumbtree.c:171-178`: the parent is released before the child
is read).
-/
namespace Rum.Tree
open Rum

variable {α : Type}

/-- The pages a backend keeps pinned between its visits, as far as VACUUM is concerned: an insertion under way the root (it may pin more pages, but
then VACUUM does not run); a scan the leaf it will visit next (rumStep pins the next page before it releases the current one,
`/repo/src/rumbtree.c:222-224`; a cursor keeps its page pinned, `/repo/src/rumget.c:660-683`, `:1014-1027`). -/
def pins (root : Nat) : Thread α → List Nat
  | .ins _ _ (_ :: _) => [root]
  | .walk _ _ _ _ => [root]
  | .top _ => [root]
  | .level _ _ _ => [root]
  | .scan b _ => [b]
  | .cursor b _ _ _ => [b]
  | .next b _ _ => [b]
  | _ => []

/-- The page a scan has come to by rumStep. -/
def stepTo : Thread α → Option Nat
  | .scan b _ => some b
  | .next b _ _ => some b
  | _ => none

/-- The tree, the backends, and the VACUUM under way if there is one: the rows it was told are dead, and the records still to be written. -/
structure VSys (α : Type) (δ : Type) where
  sys : Sys α
  vac : Option (δ × List (Store α))

end Rum.Tree
