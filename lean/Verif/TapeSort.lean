import Verif.QSort
import Mathlib.Data.Int.Basic
/-!
# Model of the external sort of RUM's tuplesort (`src/tuplesort12.c`)

When the tuples do not fit in memory they are sorted in portions, each of which is written to a tape as a run; the runs are distributed over the tapes and merged by Knuth's
Algorithm D (polyphase merge) with a heap. The same code stands in `tuplesort10.c`, `tuplesort11.c`, `tuplesort13.c` and `tuplesort14.c`; `tuplesort96.c` can also make
runs by replacement selection and `tuplesort15.c` merges in another way (not modelled).

Simplifications: a tape is the list of the runs that are on it and have not been read; a read takes what was written (that the bytes written are read back is in `TapeBytes`); memory accounting, the slab
allocator, read buffers and parallel workers are left out; when memory is full is left open (any division of the input into portions). `int` does not overflow.
The array of the heap is a function from positions. An element of the heap is a tuple with its `tupindex`.
-/
namespace Rum.TapeSort
open Rum.QSort

section
variable {α : Type} (cmp : α → α → Ordering)

/-! ### The heap -/

/-- memtuples[i] = x. -/
def put {β : Type} (f : Nat → β) (i : Nat) (x : β) : Nat → β := fun k => if k = i then x else f k

/-- The loop of tuplesort_heap_insert, `/repo/src/tuplesort12.c:3353-3362`; the first number bounds the rounds (`j` is enough). -/
def heapUp {β : Type} (cmp : β → β → Ordering) (x : β) : Nat → Nat → (Nat → β) → (Nat → β)
  | 0, j, f => put f j x
  | m + 1, j, f =>
    if j > 0 then
      let i := (j - 1) / 2
      if cmp x (f i) = .lt then heapUp cmp x m i (put f j (f i)) else put f j x
    else put f j x

/-- tuplesort_heap_insert, `/repo/src/tuplesort12.c:3338-3364`: the array and memtupcount. -/
def heapInsert {β : Type} (cmp : β → β → Ordering) (h : (Nat → β) × Nat) (x : β) : (Nat → β) × Nat := (heapUp cmp x h.2 h.2 h.1, h.2 + 1)

/-- The loop of tuplesort_heap_replace_top, `/repo/src/tuplesort12.c:3413-3429`; the first number bounds the rounds (`n` is enough). -/
def heapDown {β : Type} (cmp : β → β → Ordering) (x : β) (n : Nat) : Nat → Nat → (Nat → β) → (Nat → β)
  | 0, i, f => put f i x
  | m + 1, i, f =>
    let j := 2 * i + 1
    if j ≥ n then put f i x
    else
      let j' := if j + 1 < n ∧ cmp (f j) (f (j + 1)) = .gt then j + 1 else j
      if cmp x (f j') ≠ .gt then put f i x
      else heapDown cmp x n m j' (put f i (f j'))

/-- tuplesort_heap_replace_top, `/repo/src/tuplesort12.c:3397-3430`. -/
def heapReplace {β : Type} (cmp : β → β → Ordering) (h : (Nat → β) × Nat) (x : β) : (Nat → β) × Nat := (heapDown cmp x h.2 h.2 0 h.1, h.2)

/-- tuplesort_heap_delete_top, `/repo/src/tuplesort12.c:3373-3388`. -/
def heapDelete {β : Type} (cmp : β → β → Ordering) (h : (Nat → β) × Nat) : (Nat → β) × Nat :=
  if h.2 ≤ 1 then (h.1, 0) else heapReplace cmp (h.1, h.2 - 1) (h.1 (h.2 - 1))

/-! ### One merge -/

/-- COMPARETUP of elements of the heap. -/
def cmpFst (x y : α × Nat) : Ordering := cmp x.1 y.1

/-- The filling of the heap, `/repo/src/tuplesort12.c:2884-2893`: the heap and what is left of the runs; `src` counts from `k` on. -/
def fill : Nat → Nat → (Nat → List α) → (Nat → α × Nat) × Nat → ((Nat → α × Nat) × Nat) × (Nat → List α)
  | 0, _, rest, h => (h, rest)
  | m + 1, k, rest, h =>
    match rest k with
    | [] => fill m (k + 1) rest h
    | y :: ys => fill m (k + 1) (put rest k ys) (heapInsert (cmpFst cmp) h (y, k))

/-- The loop of mergeonerun, `/repo/src/tuplesort12.c:2805-2829`, and of tuplesort_gettuple_common, case TSS_FINALMERGE, `/repo/src/tuplesort12.c:2077-2138`: the tuples in the order in which they
come from the heap. The number bounds the rounds (the number of tuples is enough). -/
def drain : Nat → (Nat → α × Nat) × Nat → (Nat → List α) → List α
  | 0, _, _ => []
  | m + 1, h, rest =>
    if h.2 > 0 then
      let top := h.1 0
      match rest top.2 with
      | y :: ys => top.1 :: drain m (heapReplace (cmpFst cmp) h (y, top.2)) (put rest top.2 ys)
      | [] => top.1 :: drain m (heapDelete (cmpFst cmp) h) rest
    else []

/-- A merge of the runs `cur k`, `k < maxTapes`. -/
def mergeAll [Inhabited α] (maxTapes : Nat) (cur : Nat → List α) : List α :=
  let r := fill cmp maxTapes 0 cur (fun _ => (default, 0), 0)
  drain cmp ((List.range maxTapes).map (fun k => (cur k).length)).sum r.1 r.2

/-! ### Algorithm D -/

/-- The variables of Algorithm D and the tapes. `T` (tapeRange) is the number of tapes less one. -/
structure St (α : Type) where
  level : Nat
  dest : Nat
  fib : Nat → Int
  runs : Nat → Int
  dummy : Nat → Int
  tapenum : Nat → Nat
  tape : Nat → List (List α)

/-- inittapes, `/repo/src/tuplesort12.c:2423-2438`. -/
def initTapes (T : Nat) : St α :=
  { level := 1, dest := 0, fib := put (fun _ => 1) T 0, runs := fun _ => 0, dummy := put (fun _ => 1) T 0, tapenum := fun j => j, tape := fun _ => [] }

/-- selectnewtape, `/repo/src/tuplesort12.c:2494-2521`. -/
def selectNewTape (T : Nat) (s : St α) : St α :=
  if s.dummy s.dest < s.dummy (s.dest + 1) then { s with dest := s.dest + 1 }
  else if s.dummy s.dest ≠ 0 then { s with dest := 0 }
  else
    let a := s.fib 0
    { s with
      level := s.level + 1
      dummy := fun j => if j < T then a + s.fib (j + 1) - s.fib j else s.dummy j
      fib := fun j => if j < T then a + s.fib (j + 1) else s.fib j
      dest := 0 }

/-- dumptuples without the call of selectnewtape, `/repo/src/tuplesort12.c:2983-3022`: the tuples in memory become a run. -/
def dumpTuples [Inhabited α] (s : St α) (mem : List α) : St α :=
  { s with
    tape := put s.tape (s.tapenum s.dest) (s.tape (s.tapenum s.dest) ++ [sortMem cmp mem])
    runs := put s.runs s.dest (s.runs s.dest + 1)
    dummy := put s.dummy s.dest (s.dummy s.dest - 1) }

/-- Which tapes take part in a merge: `mergeactive` after `/repo/src/tuplesort12.c:2864-2880`. -/
def active (T : Nat) (s : St α) (t : Nat) : Bool := (List.range T).any (fun j => decide (s.tapenum j = t) && !decide (s.dummy j > 0))

/-- What mergereadnext (`/repo/src/tuplesort12.c:2901-2918`) finds on a tape during a merge: its next run if it is active. -/
def cur (T : Nat) (s : St α) (t : Nat) : List α := if active T s t then (s.tape t).headD [] else []

/-- beginmerge's counts, `/repo/src/tuplesort12.c:2868-2881`, and the tapes after the merge has read the runs; `none` when an assertion fails. -/
def beginMerge (T : Nat) (s : St α) : Option (St α) :=
  if ∃ j ∈ List.range T, ¬ s.dummy j > 0 ∧ ¬ s.runs j > 0 then none
  else if ∀ j ∈ List.range T, s.dummy j > 0 then none
  else some { s with
    dummy := fun j => if j < T ∧ s.dummy j > 0 then s.dummy j - 1 else s.dummy j
    runs := fun j => if j < T ∧ ¬ s.dummy j > 0 then s.runs j - 1 else s.runs j
    tape := fun t => if active T s t then (s.tape t).tail else s.tape t }

/-- mergeonerun, `/repo/src/tuplesort12.c:2789-2844`. -/
def mergeOneRun [Inhabited α] (T : Nat) (s : St α) : Option (St α) :=
  match beginMerge T s with
  | none => none
  | some s1 =>
    let d := s.tapenum T
    some { s1 with
      tape := put s1.tape d (s1.tape d ++ [mergeAll cmp (T + 1) (cur T s)])
      runs := put s1.runs T (s1.runs T + 1) }

/-- Step D5, `/repo/src/tuplesort12.c:2708-2731`; `none` when it does not end within the given number of rounds. -/
def passD5 [Inhabited α] (T : Nat) : Nat → St α → Option (St α)
  | 0, s => if s.runs (T - 1) ≠ 0 ∨ s.dummy (T - 1) ≠ 0 then none else some s
  | m + 1, s =>
    if s.runs (T - 1) ≠ 0 ∨ s.dummy (T - 1) ≠ 0 then
      if ∀ j ∈ List.range T, s.dummy j ≠ 0 then
        passD5 T m { s with dummy := fun j => if j = T then s.dummy j + 1 else if j < T then s.dummy j - 1 else s.dummy j }
      else
        match mergeOneRun cmp T s with
        | none => none
        | some s1 => passD5 T m s1
    else some s

/-- Step D6, `/repo/src/tuplesort12.c:2733-2756`: rewinding a tape for writing empties it. -/
def rotate (T : Nat) (s : St α) : St α :=
  let runs1 := put s.runs (T - 1) 0
  { s with
    level := s.level - 1
    tape := put s.tape (s.tapenum (T - 1)) []
    runs := fun j => if j = 0 then runs1 T else if j ≤ T then runs1 (j - 1) else runs1 j
    dummy := fun j => if j = 0 then s.dummy T else if j ≤ T then s.dummy (j - 1) else s.dummy j
    tapenum := fun j => if j = 0 then s.tapenum T else if j ≤ T then s.tapenum (j - 1) else s.tapenum j }

/-- mergeruns, `/repo/src/tuplesort12.c:2676-2767`, and the reading of the result, tuplesort_gettuple_common (`/repo/src/tuplesort12.c:1957-1994`, `2077-2138`): all tuples in the order in which they come.
`none` when an assertion fails or the end is not reached within the given number of rounds. -/
def mergeRuns [Inhabited α] (randomAccess : Bool) (T : Nat) : Nat → St α → Option (List α)
  | 0, _ => none
  | m + 1, s =>
    if randomAccess = false ∧ ∀ j ∈ List.range T, s.runs j + s.dummy j = 1 then
      match beginMerge T s with
      | none => none
      | some _ => some (mergeAll cmp (T + 1) (cur T s))
    else
      match passD5 cmp T (s.runs (T - 1) + s.dummy (T - 1)).toNat s with
      | none => none
      | some s1 =>
        if s1.level ≤ 1 then some ((s1.tape (s1.tapenum T)).headD [])
        else mergeRuns randomAccess T m (rotate T s1)

/-- The making of the runs, puttuple_common (`/repo/src/tuplesort12.c:1678-1688`, 1713-1724): each time memory is full the tuples in it become a run. -/
def makeRuns [Inhabited α] (T : Nat) : List (List α) → St α → St α
  | [], s => s
  | mem :: ms, s => makeRuns T ms (selectNewTape T (dumpTuples cmp s mem))

/-- A sort that does not fit in memory, tuplesort_performsort, case TSS_BUILDRUNS, `/repo/src/tuplesort12.c:1858-1872`: `full` are the portions with which memory was filled, `last` the tuples that are in
memory at the end. -/
def tapeSort [Inhabited α] (randomAccess : Bool) (T : Nat) (full : List (List α)) (last : List α) : Option (List α) :=
  let s := dumpTuples cmp (makeRuns cmp T full (initTapes T)) last
  mergeRuns cmp randomAccess T s.level s

end

end Rum.TapeSort
