import Verif.TapeSort
/-!
# Model of the external sort of version 15 (`src/tuplesort15.c`): the balanced merge

Version 15 distributes the runs evenly over the tapes and merges them in passes: one run of each tape at a time, onto as many output tapes as are needed, which are the
input of the next pass. The heap and the loop that empties it are those of the earlier versions (`TapeSort`): tuplesort_heap_insert, tuplesort_heap_replace_top and tuplesort_heap_delete_top,
`/repo/src/tuplesort15.c:3718-3809`, have the same text. The sort in memory is PostgreSQL's `sort_template.h` in this version and any sorting function here.

Simplifications: those of `TapeSort`. Arrays of tapes are functions from positions together with the number of tapes in use; the allocated size of `outputTapes` is kept, and
a tape created outside of it counts as a failure (`none`), as does a failing assertion.
-/
namespace Rum.BalSort
open Rum.QSort Rum.TapeSort

variable {α : Type} (cmp : α → α → Ordering)

/-- The variables of the tape sort, `/repo/src/tuplesort15.c:373-395`: `inputTapes`, `nInputTapes`, `nInputRuns`, `outputTapes` with its allocated size, `nOutputTapes`, `nOutputRuns`, the place
of `destTape` in `outputTapes`, `currentRun`. A tape is the list of its unread runs. -/
structure Tapes15 (α : Type) where
  inp : Nat → List (List α)
  nIn : Nat
  inRuns : Nat
  out : Nat → List (List α)
  size : Nat
  nOut : Nat
  outRuns : Nat
  dest : Nat
  current : Nat

/-- selectnewtape, `/repo/src/tuplesort15.c:2929-2957`; `M` is maxTapes. -/
def selectNewTape (M : Nat) (s : Tapes15 α) : Option (Tapes15 α) :=
  if s.nOut < M then
    if s.outRuns ≠ s.nOut ∨ s.size ≤ s.nOut then none
    else some { s with dest := s.nOut, out := put s.out s.nOut [], nOut := s.nOut + 1, outRuns := s.outRuns + 1 }
  else some { s with dest := s.outRuns % s.nOut, outRuns := s.outRuns + 1 }

/-- inittapes, `/repo/src/tuplesort15.c:2873-2889`. -/
def initTapes (M : Nat) : Option (Tapes15 α) := selectNewTape M
  { inp := fun _ => [], nIn := 0, inRuns := 0, out := fun _ => [], size := M, nOut := 0, outRuns := 0, dest := 0, current := 0 }

/-- Writing a run and its end marker to destTape. -/
def writeRun (s : Tapes15 α) (run : List α) : Tapes15 α := { s with out := put s.out s.dest (s.out s.dest ++ [run]) }

/-- dumptuples after the test whether it is to be done, `/repo/src/tuplesort15.c:3311-3367`: the tuples in memory become a run. -/
def dumpTuples (memSort : List α → List α) (M : Nat) (s : Tapes15 α) (mem : List α) : Option (Tapes15 α) :=
  if mem.isEmpty ∧ s.current > 0 then some s
  else match (if s.current > 0 then selectNewTape M s else some s) with
    | none => none
    | some s1 => some { writeRun s1 (memSort mem) with current := s.current + 1 }

/-- beginmerge's activeTapes, `/repo/src/tuplesort15.c:3252`. -/
def active (s : Tapes15 α) : Nat := min s.nIn s.inRuns

/-- What mergereadnext (`/repo/src/tuplesort15.c:3271-3282`) finds on an input tape during a merge. -/
def cur (s : Tapes15 α) (t : Nat) : List α := if t < active s then (s.inp t).headD [] else []

/-- mergeonerun, `/repo/src/tuplesort15.c:3185-3236`. `nInputRuns` is lowered when a tape that is in the heap has come to the end of its run, so a run without tuples is not counted. -/
def mergeOneRun [Inhabited α] (s : Tapes15 α) : Tapes15 α :=
  let s1 := { s with
    inp := fun t => if t < active s then (s.inp t).tail else s.inp t
    inRuns := s.inRuns - ((List.range (active s)).filter (fun t => !(cur s t).isEmpty)).length }
  writeRun s1 (mergeAll cmp (active s) (cur s))

/-- The beginning of a pass in mergeruns, `/repo/src/tuplesort15.c:3084-3102`. -/
def newPass (s : Tapes15 α) : Tapes15 α :=
  { s with inp := s.out, nIn := s.nOut, inRuns := s.outRuns, out := fun _ => [], size := s.nOut, nOut := 0, outRuns := 0 }

/-- The loop of mergeruns, `/repo/src/tuplesort15.c:3076-3165`, and the reading of the result, tuplesort_gettuple_common (`/repo/src/tuplesort15.c:2366-2399`, `2483-2534`): all tuples in the
order in which they come. `none` when an assertion fails, when the heap would need more than its `room` places (`memtupsize`, `/repo/src/tuplesort15.c:3061`, asserted at `3726`), or when the end is
not reached within the given number of rounds. -/
def mergeRuns [Inhabited α] (randomAccess : Bool) (M room : Nat) : Nat → Tapes15 α → Option (List α)
  | 0, _ => none
  | m + 1, s =>
    let s1 := if s.inRuns = 0 then newPass s else s
    if room < active s1 then none
    else if s.inRuns = 0 ∧ randomAccess = false ∧ s1.inRuns ≤ s1.nIn then some (mergeAll cmp (active s1) (cur s1))
    else match selectNewTape M s1 with
      | none => none
      | some s2 =>
        let s3 := mergeOneRun cmp s2
        if s3.inRuns = 0 ∧ s3.outRuns ≤ 1 then some ((s3.out 0).headD [])
        else mergeRuns randomAccess M room m s3

/-- The making of the runs, puttuple_common (`/repo/src/tuplesort15.c:2096-2108`, 2133-2144): each time memory is full the tuples in it become a run. -/
def makeRuns (memSort : List α → List α) (M : Nat) : List (List α) → Tapes15 α → Option (Tapes15 α)
  | [], s => some s
  | mem :: ms, s => match dumpTuples memSort M s mem with
    | none => none
    | some s1 => makeRuns memSort M ms s1

/-- A sort that does not fit in memory, tuplesort_performsort, case TSS_BUILDRUNS, `/repo/src/tuplesort15.c:2260-2274`: `full` are the portions with which memory was filled, `last` the tuples that
are in memory at the end. -/
def tapeSort [Inhabited α] (memSort : List α → List α) (randomAccess : Bool) (M : Nat) (full : List (List α)) (last : List α) : Option (List α) :=
  match initTapes (α := α) M with
  | none => none
  | some s0 => match makeRuns memSort M full s0 with
    | none => none
    | some s1 => match dumpTuples memSort M s1 last with
      | none => none
      | some s => mergeRuns cmp randomAccess M s.nOut (2 * s.outRuns) s

end Rum.BalSort
