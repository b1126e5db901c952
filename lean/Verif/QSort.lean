import Mathlib.Order.Basic
/-!
# Model of the quicksort of RUM's tuplesort (`src/qsort_tuple.c`)

RUM carries its own copy of PostgreSQL's tuplesort; an array of tuples that fits in memory is sorted by `qsort_tuple`. The array is a function from
positions; pointers into it are positions. `cmp` stands for the comparison function, its result being below 0, 0 or above 0. CHECK_FOR_INTERRUPTS is left out.
`qsort_ssup` is the same text with another comparison; RUM's sorts never use it (`onlyKey` is NULL in them).

The file is included by `tuplesort96.c` to `tuplesort13.c`. `tuplesort14.c` and `tuplesort15.c` get the same algorithm from PostgreSQL's `sort_template.h`, which is not
in the repository; so does `qsort` of PostgreSQL, with which rumbulk.c sorts.
-/
namespace Rum.QSort

section
variable {α : Type} (cmp : α → α → Ordering)

/-- swap, `/repo/src/qsort_tuple.c:65-70`. -/
def swap (f : Nat → α) (i j : Nat) : Nat → α := fun k => if k = i then f j else if k = j then f i else f k

/-- vecswap and swapfunc, `/repo/src/qsort_tuple.c:54-72`: `n` elements from `a` on are swapped with those from `b` on. -/
def vecswap (f : Nat → α) (a b : Nat) : Nat → Nat → α
  | 0 => f
  | n + 1 => vecswap (swap f a b) (a + 1) (b + 1) n

/-- med3_tuple, `/repo/src/qsort_tuple.c:74-82`. -/
def med3 (f : Nat → α) (a b c : Nat) : Nat :=
  if cmp (f a) (f b) = .lt then
    if cmp (f b) (f c) = .lt then b else if cmp (f a) (f c) = .lt then c else a
  else
    if cmp (f b) (f c) = .gt then b else if cmp (f a) (f c) = .lt then a else c

/-- The inner loop of the insertion sort, `/repo/src/qsort_tuple.c:104-105`; the second argument is `pl`. -/
def sink (a : Nat) : Nat → (Nat → α) → (Nat → α)
  | 0, f => f
  | p + 1, f => if p + 1 > a ∧ cmp (f p) (f (p + 1)) = .gt then sink a p (swap f (p + 1) p) else f

/-- The insertion sort, `/repo/src/qsort_tuple.c:101-107`; `m` positions from `pm` on are to be done. -/
def isort (a : Nat) : Nat → Nat → (Nat → α) → (Nat → α)
  | 0, _, f => f
  | m + 1, pm, f => isort a m (pm + 1) (sink cmp a pm f)

/-- The check for sorted input, `/repo/src/qsort_tuple.c:108-119`. -/
def presorted (f : Nat → α) : Nat → Nat → Bool
  | 0, _ => true
  | m + 1, pm => if cmp (f (pm - 1)) (f pm) = .gt then false else presorted f m (pm + 1)

/-- The choice of the pivot, `/repo/src/qsort_tuple.c:120-134`. -/
def pivot (f : Nat → α) (a n : Nat) : Nat :=
  if n > 7 then
    if n > 40 then
      let d := n / 8
      med3 cmp f (med3 cmp f a (a + d) (a + 2 * d)) (med3 cmp f (a + n / 2 - d) (a + n / 2) (a + n / 2 + d))
        (med3 cmp f (a + (n - 1) - 2 * d) (a + (n - 1) - d) (a + (n - 1)))
    else med3 cmp f a (a + n / 2) (a + (n - 1))
  else a + n / 2

/-- The array and the four pointers of the partition. -/
structure Part (α : Type) where
  f : Nat → α
  pa : Nat
  pb : Nat
  pc : Nat
  pd : Nat

/-- The scan from the left, `/repo/src/qsort_tuple.c:140-149`; the first argument bounds the number of rounds. -/
def scanL (a : Nat) : Nat → Part α → Part α
  | 0, p => p
  | m + 1, p =>
    if p.pb ≤ p.pc then
      match cmp (p.f p.pb) (p.f a) with
      | .gt => p
      | .eq => scanL a m { p with f := swap p.f p.pa p.pb, pa := p.pa + 1, pb := p.pb + 1 }
      | .lt => scanL a m { p with pb := p.pb + 1 }
    else p

/-- The scan from the right, `/repo/src/qsort_tuple.c:150-159`. -/
def scanR (a : Nat) : Nat → Part α → Part α
  | 0, p => p
  | m + 1, p =>
    if p.pb ≤ p.pc then
      match cmp (p.f p.pc) (p.f a) with
      | .lt => p
      | .eq => scanR a m { p with f := swap p.f p.pc p.pd, pd := p.pd - 1, pc := p.pc - 1 }
      | .gt => scanR a m { p with pc := p.pc - 1 }
    else p

/-- The partition, `/repo/src/qsort_tuple.c:136-165`. The bounds of the scans are the number of positions not yet looked at. -/
def split (a : Nat) : Nat → Part α → Part α
  | 0, p => p
  | m + 1, p =>
    let p1 := scanL cmp a (p.pc + 1 - p.pb) p
    let p2 := scanR cmp a (p1.pc + 1 - p1.pb) p1
    if p2.pb > p2.pc then p2
    else split a m { p2 with f := swap p2.f p2.pb p2.pc, pb := p2.pb + 1, pc := p2.pc - 1 }

/-- The tuples equal to the pivot are brought to the middle, `/repo/src/qsort_tuple.c:166-170`. -/
def middle (a n : Nat) (p : Part α) : Nat → α :=
  let d1 := min (p.pa - a) (p.pb - p.pa)
  let f1 := vecswap p.f a (p.pb - d1) d1
  let d2 := min (p.pd - p.pc) (a + n - p.pd - 1)
  vecswap f1 p.pb (a + n - d2) d2

/-- qsort_tuple, `/repo/src/qsort_tuple.c:84-200`: the array sorted, and how many calls are on the stack at most (the first one not counted). `goto loop` is a
call that needs no stack. The first argument bounds the number of calls; `n` is enough. -/
def qsort : Nat → Nat → Nat → (Nat → α) → (Nat → α) × Nat
  | 0, _, _, f => (f, 0)
  | m + 1, a, n, f =>
    if n < 7 then (isort cmp a (n - 1) (a + 1) f, 0)
    else if presorted cmp f (n - 1) (a + 1) = true then (f, 0)
    else
      let f0 := swap f a (pivot cmp f a n)
      let p := split cmp a n ⟨f0, a + 1, a + 1, a + (n - 1), a + (n - 1)⟩
      let f1 := middle a n p
      let d1 := p.pb - p.pa
      let d2 := p.pd - p.pc
      if d1 ≤ d2 then
        let r1 := if d1 > 1 then (fun r => (r.1, r.2 + 1)) (qsort m a d1 f1) else (f1, 0)
        let r2 := if d2 > 1 then qsort m (a + n - d2) d2 r1.1 else (r1.1, 0)
        (r2.1, max r1.2 r2.2)
      else
        let r1 := if d2 > 1 then (fun r => (r.1, r.2 + 1)) (qsort m (a + n - d2) d2 f1) else (f1, 0)
        let r2 := if d1 > 1 then qsort m a d1 r1.1 else (r1.1, 0)
        (r2.1, max r1.2 r2.2)

/-- The sort of a list of tuples in memory, tuplesort_sort_memtuples (`/repo/src/tuplesort10.c:3404-3419`, `/repo/src/tuplesort12.c:3311-3327`) for a `comparetup` function:
nothing is done for fewer than two tuples. -/
def sortMem [Inhabited α] (l : List α) : List α :=
  if l.length > 1 then (List.range l.length).map (qsort cmp l.length 0 l.length (fun i => l.getD i default)).1 else l

end

end Rum.QSort
