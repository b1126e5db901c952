import Verif.IndexConc
import Verif.IndexVacuum
import Verif.VacConc
/-!
# VACUUM of the whole index among running row insertions and searches (rumbulkdelete, `/repo/src/rumvacuum.c:651-771`)

The backends are those of `Verif/IndexConc.lean`. One more process runs VACUUM. It goes down to the leftmost leaf of the entry tree with share locks, one
page at a time (`:680-708`), then from leaf to leaf by the right links (`:711-768`). On a leaf, which it has locked exclusively, it cleans the posting lists and
makes a list of the posting trees; it notes the right link and unlocks the page (`:744`, `:762`); then it vacuums the posting trees of the list
(`:746-757`) one after the other, each as in `Verif/VacConc.lean`.

Simplifications: those of `Verif/IndexConc.lean` and `Verif/VacConc.lean`. Between leaves the code keeps a pin, not a lock, on the page it comes to
next; entry tree pages are never deleted, so the pin has no effect. VACUUM is not cancelled in the middle.
-/
namespace Rum.Index
open Rum Rum.Codec Rum.Leaf Rum.Entry Rum.Tree

variable {V : Type}

/-- Where VACUUM is, between two visits to pages. -/
inductive Pos where
  /-- On the way to the leftmost leaf, `/repo/src/rumvacuum.c:680-708`: about to lock page `b`. -/
  | down (b : Nat)
  /-- About to lock leaf `b` exclusively, `:686-692` and `:764`. -/
  | leaf (b : Nat)
  /-- The leaf is done and unlocked; the posting trees (with their columns) still to be vacuumed, `:746-757`, and the right link noted, `:711`. -/
  | trees (ts : List (Nat × Nat)) (nxt : Option Nat)
  /-- In posting tree `t`, whose root is locked: the records still to be written there. -/
  | tree (t : Nat) (us : List (Store (Item Datum))) (ts : List (Nat × Nat)) (nxt : Option Nat)

/-- A VACUUM under way. -/
structure Vac where
  dead : Iptr → Bool
  pos : Pos

/-- The index, its backends, and the VACUUM under way if there is one. -/
structure VNet (V : Type) where
  net : Net V
  vac : Option Vac

/-- The visit to a leaf, `/repo/src/rumvacuum.c:686-744`: if the root is a leaf no more the descent begins again (`:693-699`); otherwise the posting lists
are cleaned (rumVacuumEntryPage). -/
def Ix.vacLeaf (ix : Ix V) (dead : Iptr → Bool) (st : State V) (b : Nat) : Option (State V × Option Pos) :=
  if b = rootBlk ∧ (st.entry.page b).leaf = false then some (st, some (.down rootBlk))
  else match ix.vacPage dead [] false (st.entry.page b).items with
    | none => none
    | some (its, changed) =>
      some (if changed then { st with entry := st.entry.set b { st.entry.page b with items := its } } else st,
        some (.trees (rootsOf (st.entry.page b).items) (st.entry.page b).right))

/-- One step of VACUUM: the index after it and where VACUUM is then (`none`: it has ended). The outer `none`: an error. -/
def Ix.vacVisit (ix : Ix V) (dead : Iptr → Bool) (st : State V) : Pos → Option (State V × Option Pos)
  | .down b =>
    if (st.entry.page b).leaf then some (st, some (.leaf b))
    else match (st.entry.page b).downs.head? with
      | some d => some (st, some (.down d.2))
      | none => none
  | .leaf b => ix.vacLeaf dead st b
  | .trees [] none => some (st, none)
  | .trees [] (some r) => some (st, some (.leaf r))
  | .trees ((t, a) :: ts) nxt => some (st, some (.tree t (vacuumTree (dataVac (ix.ctx a).cfg dead) (st.trees t) 0) ts nxt))
  | .tree t (u :: us) ts nxt => some (st.setTree t u, some (.tree t us ts nxt))
  | .tree _ [] ts nxt => some (st, some (.trees ts nxt))

/-- VACUUM can take the locks of its next step: a page of the entry tree that nobody keeps locked; the cleanup lock on the root of a posting tree
(`/repo/src/rumvacuum.c:232`); a page to be deleted that nobody has pinned (`:358-364`). -/
def vacMay (n : Net V) : Pos → Prop
  | .down b => ∀ j, holds (n.eth j) ≠ some b
  | .leaf b => ∀ j, holds (n.eth j) ≠ some b
  | .trees ((t, _) :: _) _ => ∀ j, 0 ∉ pins 0 (n.tth t j)
  | .tree t (u :: _) _ _ => ∀ j, ∀ b ∈ pins 0 (n.tth t j), (u.page b).deleted = true → ((n.st.trees t).page b).deleted = true
  | _ => True

/-- The posting tree whose root VACUUM has locked, with what it was told and the records to come. -/
def tv (v : Option Vac) (t : Nat) : Option ((Iptr → Bool) × List (Store (Item Datum))) :=
  match v with
  | some ⟨dead, .tree u us _ _⟩ => if u = t then some (dead, us) else none
  | _ => none

end Rum.Index
