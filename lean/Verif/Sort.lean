import Verif.Order
/-!
# Model of the sorts (`src/rumsort.c`)

PostgreSQL's `tuplesort` itself is outside RUM and trusted: `performsort` is *any* function
that returns a permutation of its input in an order its comparator accepts (`Sorted`).
-/
namespace Rum.Sort
open Std

/-- RumSortItem (`/repo/src/rumsort.h:37-43`): row pointer, recheck flag, distances. `F` stands for
`float8` without NaN and `cmpF` for C's `<`/`>` on it. -/
structure SortItem (F : Type) where
  iptr : Iptr
  recheck : Bool
  data : Nat → F

/-- SortTuple of PostgreSQL: the cached first key and the tuple. -/
structure SortTuple (F : Type) where
  datum1 : F
  tuple : SortItem F

/-- ItemPointerData's block number halves (`ip_blkid.bi_hi`, `bi_lo`). -/
def biHi (a : Iptr) : Nat := a.blk / 65536
def biLo (a : Iptr) : Nat := a.blk % 65536

/-- compare_rum_itempointer, `/repo/src/rumsort.c:136-155`. -/
def cmpRumItempointer (p1 p2 : Iptr) : Ordering :=
  if biHi p1 < biHi p2 then .lt
  else if biHi p1 > biHi p2 then .gt
  else if biLo p1 < biLo p2 then .lt
  else if biLo p1 > biLo p2 then .gt
  else if p1.off < p2.off then .lt
  else if p1.off > p2.off then .gt
  else .eq

section
variable {F : Type} (cmpF : F → F → Ordering)

/-- The loop over the other keys in comparetup_rum, `/repo/src/rumsort.c:176-182`;
`i` is the loop variable, `fuel` the iterations left (`nKeys - i`). -/
def keysLoop (i1 i2 : SortItem F) (i : Nat) : Nat → Ordering
  | 0 => .eq
  | fuel + 1 =>
    if cmpF (i1.data i) (i2.data i) = .lt then .lt
    else if cmpF (i1.data i) (i2.data i) = .gt then .gt
    else keysLoop i1 i2 (i + 1) fuel

/-- comparetup_rum, `/repo/src/rumsort.c:157-191`. -/
def comparetupRum (nKeys : Nat) (compareItemPointer : Bool) (a b : SortTuple F) : Ordering :=
  if cmpF a.datum1 b.datum1 = .lt then .lt
  else if cmpF a.datum1 b.datum1 = .gt then .gt
  else
    match keysLoop cmpF a.tuple b.tuple 1 (nKeys - 1) with
    | .lt => .lt
    | .gt => .gt
    | .eq =>
      if !compareItemPointer then .eq
      else cmpRumItempointer a.tuple.iptr b.tuple.iptr

/-- copytup_rum, `/repo/src/rumsort.c:257-267` (also what readtup_rum restores, 355-357).
`zero` is the constant 0 used when there is no key. -/
def copytupRum (zero : F) (nKeys : Nat) (item : SortItem F) : SortTuple F :=
  { datum1 := if nKeys > 0 then item.data 0 else zero, tuple := item }

/-- The comparison of two items handed to `rum_tuplesort_putrum`. -/
def cmpSortItem (zero : F) (nKeys : Nat) (byTid : Bool) (a b : SortItem F) : Ordering :=
  comparetupRum cmpF nKeys byTid (copytupRum zero nKeys a) (copytupRum zero nKeys b)

/-- The result loop of rumgettuple, `/repo/src/rumget.c:2626-2665`, called until it returns false:
items whose row pointer equals the one returned last (`prev`, initially invalid) are skipped. -/
def emit (prev : Iptr) : List (SortItem F) → List (SortItem F)
  | [] => []
  | x :: xs => if cmpIptr prev x.iptr = .eq then emit prev xs else x :: emit x.iptr xs
end

/-- comparetup_rumitem, `/repo/src/rumsort.c:216-255`; `cmp = none` is a NULL comparison function. -/
def comparetupRumitem {V : Type} (cmp : Option (V → V → Ordering)) (i1 i2 : Item V) : Ordering :=
  match cmp with
  | none => cmpRumItempointer i1.iptr i2.iptr
  | some cmp =>
    match i1.info, i2.info with
    | none, none => cmpRumItempointer i1.iptr i2.iptr
    | none, some _ => .gt
    | some _, none => .lt
    | some x, some y =>
      match cmp x y with
      | .eq => cmpRumItempointer i1.iptr i2.iptr
      | r => r

/-- A correct sort for a comparator: `out` is a rearrangement of `inp` with no inversion. -/
def SortedBy {α : Type} (cmp : α → α → Ordering) (inp out : List α) : Prop :=
  out.Perm inp ∧ out.Pairwise (fun a b => cmp a b ≠ .gt)

end Rum.Sort
