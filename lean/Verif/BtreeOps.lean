import Verif.Order
/-
Scalar operator classes (/repo/src/btree_rum.c).
-/
set_option linter.unusedSectionVars false
namespace Rum.Bt
open Std

/-- Comparison strategies. -/
inductive Strategy where
  | lt | le | eq | ge | gt
deriving DecidableEq

variable {K : Type} (cmpK : K → K → Ordering)

/-- rum_btree_extract_query, /repo/src/btree_rum.c:78-127: the entry to start from and whether it is a partial match. -/
def extractQuery (leftmost : K) (s : Strategy) (datum : K) : K × Bool :=
  match s with
  | .lt | .le => (leftmost, true)
  | .ge | .gt => (datum, true)
  | .eq => (datum, false)

/-- rum_btree_compare_prefix, /repo/src/btree_rum.c:134-196: `a` is the entry from extract_query, `b` the indexed key,
`datum` the original query value. -/
def comparePrefix (s : Strategy) (datum a b : K) : Int :=
  let cmp := cmpK (if s = .lt ∨ s = .le then datum else a) b
  match s with
  | .lt => if cmp = .gt then 0 else 1
  | .le => if cmp ≠ .lt then 0 else 1
  | .eq => if cmp ≠ .eq then 1 else 0
  | .ge => if cmp ≠ .gt then 0 else 1
  | .gt => if cmp = .lt then 0 else if cmp = .eq then -1 else 1

/-- The rows stored under one key of the entry tree. -/
structure Entry (K : Type) where
  key : AttKey K
  rows : List Iptr

/-- The partial-match walk of collectMatchBitmap from the current entry to the right, /repo/src/rumget.c:330-488 (posting
lists and posting trees alike give the entry's rows; the list is the sequence of entries of the leaf pages). -/
def collectPartial (attnum : Nat) (cp : K → Int) : List (Entry K) → List Iptr
  | [] => []
  | e :: es =>
    if e.key.attnum ≠ attnum then []
    else if e.key.cat ≠ .norm then []
    else if cp e.key.key > 0 then []
    else if cp e.key.key < 0 then collectPartial attnum cp es
    else e.rows ++ collectPartial attnum cp es

/-- The position found by the descent of the entry tree: the first entry not less than the search key
(/repo/src/rumget.c:544-640 with entryLocateLeafEntry; the binary search itself is C17). -/
def startAt (cmpAll : Nat → K → K → Ordering) (k : AttKey K) (es : List (Entry K)) : List (Entry K) :=
  es.dropWhile (fun e => cmpAttEntries cmpAll e.key k == .lt)

/-- Rows returned by a scan with one scalar condition: partial match walk, or the exact entry
(/repo/src/rumget.c:597-715). rum_btree_consistent always accepts without recheck, /repo/src/btree_rum.c:198-206. -/
def scanRows (cmpAll : Nat → K → K → Ordering) (leftmost : K) (attnum : Nat) (s : Strategy) (datum : K)
    (es : List (Entry K)) : List Iptr :=
  let q := extractQuery leftmost s datum
  let at0 := startAt cmpAll ⟨attnum, .norm, q.1⟩ es
  if q.2 then collectPartial attnum (comparePrefix (cmpAll attnum) s datum q.1) at0
  else match at0 with
    | e :: _ => if cmpAttEntries cmpAll ⟨attnum, .norm, q.1⟩ e.key = .eq then e.rows else []
    | [] => []

/-- Specification: value `x` satisfies `x OP datum`. -/
def Sat (s : Strategy) (x datum : K) : Bool :=
  match s with
  | .lt => cmpK x datum = .lt
  | .le => cmpK x datum ≠ .gt
  | .eq => cmpK x datum = .eq
  | .ge => cmpK x datum ≠ .lt
  | .gt => cmpK x datum = .gt

/-! ### Leftmost values and comparison functions of the scalar types (PostgreSQL's comparison functions are read from
their documentation) -/

/-- btcharcmp compares as unsigned bytes; values are the bytes 0..255. -/
def charCmp (a b : BitVec 8) : Ordering := compare a.toNat b.toNat
/-- leftmostvalue_char = SCHAR_MIN, /repo/src/btree_rum.c:607-611. -/
def charLeftmost : BitVec 8 := BitVec.ofInt 8 (-128)

/-- Interval: months, days, microseconds. interval_cmp compares the total span with 30-day months, 24-hour days. -/
structure Interval where
  month : Int
  day : Int
  time : Int
/-- Field ranges: int32, int32, int64. -/
def Interval.Valid (i : Interval) : Prop :=
  -2 ^ 31 ≤ i.month ∧ i.month < 2 ^ 31 ∧ -2 ^ 31 ≤ i.day ∧ i.day < 2 ^ 31 ∧ -2 ^ 63 ≤ i.time ∧ i.time < 2 ^ 63
def Interval.span (i : Interval) : Int := i.time + (i.month * 30 + i.day) * 86400000000
def intervalCmp (a b : Interval) : Ordering := compare a.span b.span
/-- leftmostvalue_interval, /repo/src/btree_rum.c:566-576 (DT_NOBEGIN is PG_INT64_MIN). -/
def intervalLeftmost : Interval := ⟨0, 0, -2 ^ 63⟩

/-- timetz: time of day in microseconds and zone in seconds west of GMT; timetz_cmp compares GMT time, then zone. -/
structure TimeTz where
  time : Int
  zone : Int
def timetzCmp (a b : TimeTz) : Ordering :=
  (compare (a.time + a.zone * 1000000) (b.time + b.zone * 1000000)).then (compare a.zone b.zone)
/-- Zones are limited to 15:59:59. -/
def TimeTz.Valid (t : TimeTz) : Prop := 0 ≤ t.time ∧ t.time ≤ 86400000000 ∧ -57600 < t.zone ∧ t.zone < 57600
/-- leftmostvalue_timetz, /repo/src/btree_rum.c:544-553. -/
def timetzLeftmost : TimeTz := ⟨0, -24 * 3600⟩

/-- float4/float8 values; btfloat8cmp sorts NaN after everything. Finite values are any linear order `Q`. -/
inductive FloatVal (Q : Type) where
  | negInf | fin (q : Q) | posInf | nan
def floatCmp {Q : Type} (cmpQ : Q → Q → Ordering) : FloatVal Q → FloatVal Q → Ordering
  | .fin a, .fin b => cmpQ a b
  | a, b => compare (rank a) (rank b)
where rank : FloatVal Q → Nat
  | .negInf => 0 | .fin _ => 1 | .posInf => 2 | .nan => 3

/-- numeric with the artificial leftmost value NULL: rum_numeric_cmp, /repo/src/btree_rum.c:650-675. -/
def numericCmp {Q : Type} (cmpQ : Q → Q → Ordering) : Option Q → Option Q → Ordering
  | none, none => .eq
  | none, some _ => .lt
  | some _, none => .gt
  | some a, some b => cmpQ a b

/-- memcmp-style comparison used by bytea and by text in the C collation: lexicographic on unsigned bytes, then length. -/
def bytesCmp : List Nat → List Nat → Ordering
  | [], [] => .eq
  | [], _ :: _ => .lt
  | _ :: _, [] => .gt
  | a :: as, b :: bs => (compare a b).then (bytesCmp as bs)

/-- bitcmp: the common bytes, then the bit length. A bit string is its bytes and its bit length. -/
def bitCmp (a b : List Nat × Nat) : Ordering :=
  (bytesCmp (a.1.take (min a.1.length b.1.length)) (b.1.take (min a.1.length b.1.length))).then (compare a.2 b.2)

/-- inet/cidr: family (2 for IPv4, 3 for IPv6), prefix length, address bits. network_cmp: within a family the common
prefix bits, then the prefix length, then the whole address; otherwise the family. -/
structure Inet where
  family : Nat
  bits : Nat
  addr : List Nat
def networkCmp (a b : Inet) : Ordering :=
  if a.family = b.family then
    (bytesCmp (a.addr.take (min a.bits b.bits)) (b.addr.take (min a.bits b.bits))).then
      ((compare a.bits b.bits).then (bytesCmp a.addr b.addr))
  else compare a.family b.family
/-- leftmostvalue_inet = '0.0.0.0/0', /repo/src/btree_rum.c:588-592. -/
def inetLeftmost : Inet := ⟨2, 0, List.replicate 32 0⟩
def Inet.Valid (a : Inet) : Prop :=
  (a.family = 2 ∧ a.addr.length = 32 ∨ a.family = 3 ∧ a.addr.length = 128) ∧ ∀ b ∈ a.addr, b < 2

/-! ### Distances -/

/-- Rounding to float8 of integers. -/
structure Rounding where
  rnd : Int → Int
  mono : ∀ a b, a ≤ b → rnd a ≤ rnd b
  exact : ∀ n : Int, -2 ^ 53 ≤ n → n ≤ 2 ^ 53 → rnd n = n

/-- A distance: a number or infinity. -/
inductive Dist where
  | num (n : Int)
  | inf
deriving DecidableEq

def Dist.le : Dist → Dist → Prop
  | _, .inf => True
  | .num a, .num b => a ≤ b
  | .inf, .num _ => False

variable {T : Type} (isInf : T → Bool) (cmpT : T → T → Ordering) (sub : T → T → Int)

/-- rum_##type##_distance, /repo/src/btree_rum.c:254-277. -/
def distance (a b : T) : Dist :=
  if isInf a ∨ isInf b then (if isInf a ∧ isInf b then .num 0 else .inf)
  else .num (if cmpT a b = .gt then sub a b else sub b a)

/-- rum_##type##_left_distance, /repo/src/btree_rum.c:279-302. -/
def leftDistance (a b : T) : Dist :=
  if isInf a ∨ isInf b then (if isInf a ∧ isInf b then .num 0 else .inf)
  else if cmpT a b = .gt then .inf else .num (sub b a)

/-- rum_##type##_right_distance, /repo/src/btree_rum.c:304-327. -/
def rightDistance (a b : T) : Dist :=
  if isInf a ∨ isInf b then (if isInf a ∧ isInf b then .num 0 else .inf)
  else if cmpT a b = .gt then .num (sub a b) else .inf

/-- RUM_DISTANCE, RUM_LEFT_DISTANCE, RUM_RIGHT_DISTANCE. -/
inductive DStrategy where
  | both | left | right
deriving DecidableEq

/-- rum_##type##_outer_distance and rum_##type##_key_distance (ordering functions 8 and 9 used inside the index),
/repo/src/btree_rum.c:329-386. -/
def orderingFn (s : DStrategy) (a b : T) : Dist :=
  match s with
  | .both => distance isInf cmpT sub a b
  | .left => leftDistance isInf cmpT sub a b
  | .right => rightDistance isInf cmpT sub a b

/-- int2subtract, int4subtract, int8subtract (also money), oidsubtract, /repo/src/btree_rum.c:405-510: both values are
rounded to float8 before the subtraction, which rounds again. -/
def intSub (r : Rounding) (a b : Int) : Int := r.rnd (r.rnd a - r.rnd b)

/-- Two's complement wrap-around to 64 bits (PostgreSQL compiles with -fwrapv). -/
def wrap64 (n : Int) : Int := (n + 2 ^ 63) % 2 ^ 64 - 2 ^ 63

/-- timestamp_subtract, /repo/src/btree_rum.c:524-528, in microseconds (the division by 1e6 is left out: it is monotone
and keeps the sign): the subtraction is done in int64. -/
def timestampSub (r : Rounding) (a b : Int) : Int := r.rnd (wrap64 (a - b))

/-- TIMESTAMP_NOT_FINITE: DT_NOBEGIN or DT_NOEND. -/
def timestampInf (a : Int) : Bool := a = -2 ^ 63 ∨ a = 2 ^ 63 - 1

end Rum.Bt
