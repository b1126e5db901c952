import Verif.CodecLemmas
/-!
# The tuples on a tape as bytes (`/repo/src/rumsort.c:275-380`, `/repo/src/tuplesort13.c:3622-3644`)

A tape is the list of bytes that have been written and not read. Simplification: LogicalTapeRead gives fewer bytes only at the end of the tape; the memory image of a
RumScanItem (with its pointers) is taken as it is.
-/
namespace Rum.TapeBytes
open Rum Rum.Codec

/-- RumSortItem, `/repo/src/rumsort.h:31-36`: row pointer, `recheck`, the distances (bit patterns of float8). -/
structure SortRec where
  iptr : Iptr
  recheck : Bool
  data : List Nat
deriving DecidableEq, Repr

/-- RumSortItemSize, `/repo/src/rumsort.h:38`. -/
def recSize (nKeys : Nat) : Nat := 8 + 8 * nKeys

/-- The memory image of a RumSortItem: 6 bytes row pointer, a byte `recheck`, a byte of padding, 8 bytes for each distance. -/
def recBytes (x : SortRec) : List Nat := rawIptr x.iptr ++ [if x.recheck then 1 else 0, 0] ++ x.data.flatMap (leBytes 8)

/-- Access to the members of a RumSortItem in memory. -/
def recOf (nKeys : Nat) (bs : List Nat) : SortRec :=
  ⟨⟨leNat (bs.take 2) * 2 ^ 16 + leNat ((bs.drop 2).take 2), leNat ((bs.drop 4).take 2)⟩, (bs.drop 6).headD 0 ≠ 0,
    (List.range nKeys).map (fun i => leNat ((bs.drop (8 + 8 * i)).take 8))⟩

/-- writetup_rum_internal, `/repo/src/rumsort.c:295-320`; `ra` is randomAccess. -/
def writetup (ra : Bool) (size : Nat) (item : List Nat) : List Nat :=
  leBytes 4 (size + 4) ++ item.take size ++ (if ra then leBytes 4 (size + 4) else [])

/-- markrunend, `/repo/src/tuplesort13.c:3638-3644`. -/
def markrunend : List Nat := leBytes 4 0

/-- getlen, `/repo/src/tuplesort13.c:3625-3636`: `none` is an error. -/
def getlen (eofOK : Bool) (tape : List Nat) : Option (Nat × List Nat) :=
  if tape.length < 4 then none
  else if leNat (tape.take 4) = 0 ∧ !eofOK then none
  else some (leNat (tape.take 4), tape.drop 4)

/-- LogicalTapeReadExact: `none` is an error. -/
def readExact (n : Nat) (tape : List Nat) : Option (List Nat × List Nat) := if tape.length < n then none else some (tape.take n, tape.drop n)

/-- readtup_rum_internal, `/repo/src/rumsort.c:334-366`; `none` is an error or a failed assertion (`tuplen == size`). -/
def readtup (ra : Bool) (size len : Nat) (tape : List Nat) : Option (List Nat × List Nat) :=
  if len - 4 ≠ size then none
  else match readExact size tape with
    | none => none
    | some (item, t) => if ra then (readExact 4 t).map (fun r => (item, r.2)) else some (item, t)

/-- A run: its tuples and the end mark, as written by dumptuples and mergeonerun, `/repo/src/tuplesort13.c:3100-3220`, `2964-3030`. -/
def writeRun (ra : Bool) (size : Nat) : List (List Nat) → List Nat
  | [] => markrunend
  | x :: xs => writetup ra size x ++ writeRun ra size xs

/-- Reading a run to its end (mergereadnext, `/repo/src/tuplesort13.c:3075-3092`, again and again); the number bounds the tuples. -/
def readRun (ra : Bool) (size : Nat) : Nat → List Nat → Option (List (List Nat) × List Nat)
  | 0, _ => none
  | n + 1, tape =>
    match getlen true tape with
    | none => none
    | some (len, t) =>
      if len = 0 then some ([], t)
      else match readtup ra size len t with
        | none => none
        | some (x, t) => (readRun ra size n t).map (fun r => (x :: r.1, r.2))

end Rum.TapeBytes
