import Verif.PostingTree
/-
Versions of the methods of posting trees that the kernel can evaluate, for examples and counterexamples (equal to the model's).
-/
namespace Rum.Tree
open Rum Rum.Codec Rum.Leaf

/-- mergeLoop with a bound on the number of iterations, for evaluation by the kernel. -/
def mergeLoopF (x : Ctx) (rb : Option (Item Datum)) :
    Nat → List (Item Datum) → List (Item Datum) → MergeSt → Option (MergeSt × List (Item Datum))
  | 0, _, _, _ => none
  | f + 1, o :: os, n :: ns, s =>
    if s.stop then (copyOld x.cfg s o).bind (fun s' => mergeLoopF x rb f os (n :: ns) s')
    else match x.cmp o n with
      | .lt => (copyOld x.cfg s o).bind (fun s' => mergeLoopF x rb f os (n :: ns) s')
      | .eq => (copyOld x.cfg s o).bind (fun s' => mergeLoopF x rb f os ns s')
      | .gt =>
        if newItemSize x.cfg s n ≤ s.free then (insertNew x.cfg s n).bind (fun s' => mergeLoopF x rb f (o :: os) ns s')
        else (copyOld x.cfg { s with stop := true } o).bind (fun s' => mergeLoopF x rb f os (n :: ns) s')
  | f + 1, [], n :: ns, s =>
    if s.stop then some (s, n :: ns)
    else if rb.all (fun b => x.cmp b n != .lt) then
      if newItemSize x.cfg s n ≤ s.free then (insertNew x.cfg s n).bind (fun s' => mergeLoopF x rb f [] ns s')
      else some ({ s with stop := true }, n :: ns)
    else some (s, n :: ns)
  | f + 1, o :: os, [], s => (copyOld x.cfg s o).bind (fun s' => mergeLoopF x rb f os [] s')
  | _ + 1, [], [], s => some (s, [])

theorem mergeLoopF_eq (x : Ctx) (rb : Option (Item Datum)) (os ns : List (Item Datum)) (s : MergeSt) :
    ∀ f, os.length + ns.length < f → mergeLoopF x rb f os ns s = mergeLoop x rb os ns s := by
  intro f
  induction f generalizing os ns s with
  | zero => intro h; omega
  | succ f ih =>
    intro h
    cases os with
    | nil =>
      cases ns with
      | nil => rw [mergeLoopF, mergeLoop]
      | cons n ns =>
        rw [mergeLoopF, mergeLoop]
        simp only [ih [] ns _ (by simp at h ⊢; omega)]
    | cons o os =>
      cases ns with
      | nil =>
        rw [mergeLoopF, mergeLoop]
        simp only [ih os [] _ (by simp at h ⊢; omega)]
      | cons n ns =>
        rw [mergeLoopF, mergeLoop]
        simp only [ih os (n :: ns) _ (by simp at h ⊢; omega), ih os ns _ (by simp at h ⊢; omega),
          ih (o :: os) ns _ (by simp at h ⊢; omega)]
        rfl

/-- placeToLeaf with the bounded loop. -/
def placeToLeafF (x : Ctx) (cap : Nat) (p : Leaf.Page) (rb : Option (Item Datum)) (items : List (Item Datum)) :
    Option (Leaf.Page × List (Item Datum)) :=
  match items with
  | [] => none
  | key :: _ =>
    match findInLeafPage x p key with
    | none => none
    | some f =>
      match readList x.cfg f.ptr f.iptr (p.maxoff + 1 - f.offset) (p.data.drop f.ptr) with
      | none => none
      | some (old, _) =>
        match mergeLoopF x rb (old.length + items.length + 1) old items ⟨p.data.take f.ptr, f.iptr, cap - p.data.length, false, 0⟩ with
        | none => none
        | some (s, rest) =>
          match updateItemIndexes x.cfg s.out (p.maxoff + s.ins) with
          | none => none
          | some (idx, _) => some (⟨s.out, p.maxoff + s.ins, idx⟩, rest)

theorem placeToLeafF_eq (x : Ctx) (cap : Nat) (p : Leaf.Page) (rb : Option (Item Datum)) (items : List (Item Datum)) :
    placeToLeafF x cap p rb items = placeToLeaf x cap p rb items := by
  unfold placeToLeafF placeToLeaf
  cases items with
  | nil => rfl
  | cons key items =>
    simp only
    cases findInLeafPage x p key with
    | none => rfl
    | some f =>
      simp only
      cases readList x.cfg f.ptr f.iptr (p.maxoff + 1 - f.offset) (p.data.drop f.ptr) with
      | none => rfl
      | some r => simp only [mergeLoopF_eq x rb r.1 (key :: items) _ _ (Nat.lt_succ_self _)]; rfl

/-- dataOps for evaluation. -/
def dataOpsF (x : Ctx) (cap capI : Nat) (build : Bool) : Ops (Item Datum) :=
  { dataOps x cap capI build with
    place := fun its rb batch =>
      match buildPage x.cfg its with
      | some p => match placeToLeafF x cap p rb batch with
        | some (p', rest) => (decodePage x.cfg p', rest)
        | none => (its, batch)
      | none => (its, batch) }

theorem dataOpsF_eq (x : Ctx) (cap capI : Nat) (build : Bool) : dataOpsF x cap capI build = dataOps x cap capI build := by
  unfold dataOpsF
  have : (dataOps x cap capI build).place = dataPlace x cap := rfl
  simp only [placeToLeafF_eq]
  rfl

end Rum.Tree
