import Verif.EntryTree
import Verif.TreeVacuum
/-!
# VACUUM of the whole index

rumbulkdelete and rumVacuumEntryPage, `/repo/src/rumvacuum.c:564-771`. `dead` is the callback that tells which heap TIDs are gone.

Simplifications: those of `EntryTree`; no other process changes the index meanwhile; statistics are not modelled.
-/
namespace Rum.Index
open Rum Rum.Codec Rum.Leaf Rum.Entry Rum.Tree

variable {V : Type}

/-- RumFormTuple of VACUUM, `/repo/src/rumvacuum.c:102-205`: a tuple from an already encoded posting list; `none` is the error "index row size
exceeds maximum". -/
def Ix.formBytes (ix : Ix V) (k : AttKey V) (bytes : List Nat) (n : Nat) : Option (Ent V) :=
  let size := alignUp 8 (ix.keySize k + (if n > 0 then bytes.length else 0) + catByte k)
  if size > maxTuple then none else some ⟨k, size, .list (if n > 0 then bytes else []) n⟩

/-- One tuple of a leaf of the entry tree, `/repo/src/rumvacuum.c:582-643`: the tuple that replaces it, or `none` if it stays. The outer `none`:
an error. -/
def Ix.vacTuple (ix : Ix V) (dead : Iptr → Bool) (e : Ent V) : Option (Option (Ent V)) :=
  match e.post with
  | .tree _ => some none
  | .list data n =>
    if n > 0 then
      match vacuumPostingList (ix.ctx e.key.attnum).cfg dead data n with
      | none => none
      | some (m, cleaned) =>
        if n ≠ m then
          match cleaned with
          | none => none
          | some bytes => (ix.formBytes e.key bytes m).map some
        else some none
    else some none

/-- The loop over the tuples of a page, `/repo/src/rumvacuum.c:577-647`; `pre` are the tuples behind, the flag tells whether the page was copied
and changed. A tuple is replaced by PageIndexTupleDelete and PageAddItem, which fails if the new tuple does not fit. -/
def Ix.vacPage (ix : Ix V) (dead : Iptr → Bool) (pre : List (Ent V)) (changed : Bool) : List (Ent V) → Option (List (Ent V) × Bool)
  | [] => some (pre, changed)
  | e :: es =>
    match ix.vacTuple dead e with
    | none => none
    | some none => ix.vacPage dead (pre ++ [e]) changed es
    | some (some e') =>
      if used ((pre ++ e' :: es).map leafT) ≤ entryCap then ix.vacPage dead (pre ++ [e']) true es else none

/-- rootOfPostingTree and attnumOfPostingTree, `/repo/src/rumvacuum.c:585-594`. -/
def rootsOf (its : List (Ent V)) : List (Nat × Nat) :=
  its.filterMap (fun e => match e.post with | .tree t => some (t, e.key.attnum) | .list _ _ => none)

/-- The loop over the posting trees of a page, `/repo/src/rumvacuum.c:746-757`: the states after each log record. -/
def Ix.vacRoots (ix : Ix V) (dead : Iptr → Bool) : State V → List (Nat × Nat) → List (State V)
  | _, [] => []
  | st, (t, a) :: rs =>
    let l := (vacuumTree (dataVac (ix.ctx a).cfg dead) (st.trees t) 0).map (st.setTree t)
    l ++ ix.vacRoots dead (lastState st l) rs

/-- One page of the entry tree and its posting trees, `/repo/src/rumvacuum.c:711-757`: the states after each log record, `none` for an error. -/
def Ix.vacStep (ix : Ix V) (dead : Iptr → Bool) (st : State V) (b : Nat) : Option (List (State V)) :=
  match ix.vacPage dead [] false (st.entry.page b).items with
  | none => none
  | some (its, changed) =>
    let l := if changed then [{ st with entry := st.entry.set b { st.entry.page b with items := its } }] else []
    some (l ++ ix.vacRoots dead (lastState st l) (rootsOf (st.entry.page b).items))

/-- The loop over the leaves, `/repo/src/rumvacuum.c:711-768`; the flag is `false` if an error was raised. -/
def Ix.vacWalk (ix : Ix V) (dead : Iptr → Bool) : Nat → State V → Nat → List (State V) × Bool
  | 0, _, _ => ([], false)
  | n + 1, st, b =>
    match ix.vacStep dead st b with
    | none => ([], false)
    | some l =>
      match (st.entry.page b).right with
      | none => (l, true)
      | some r =>
        let u := ix.vacWalk dead n (lastState st l) r
        (l ++ u.1, u.2)

/-- rumbulkdelete, `/repo/src/rumvacuum.c:651-771`: down to the leftmost leaf by the first downlinks, then along the right links. -/
def Ix.bulkDelete (ix : Ix V) (dead : Iptr → Bool) (st : State V) : List (State V) × Bool :=
  match leftmost st.entry st.entry.next rootBlk with
  | some b => ix.vacWalk dead st.entry.next st b
  | none => ([], false)

end Rum.Index
