/-!
# Model of index option checking: `initRumState` (`/repo/src/rumutil.c:165-444`)

Only what decides acceptance and the additional-info layout is modelled: the copying of the
support function pointers is reduced to the error it can raise (missing comparison function).
-/
namespace Rum.Options

/-- What the catalog says about one index column: its name, type, by-value flag, the additional
info type its operator class' `config` function reports (`none`: no config function or no type),
and whether a comparison function is available from the operator class or the type cache. -/
structure Col where
  name : String
  typid : Nat
  byval : Bool
  ownInfo : Option Nat
  hasCmp : Bool
deriving DecidableEq

/-- `RumOptions` (`/repo/src/rum.h:229-240`) after parsing: `attachColumn > 0` is `some`. -/
structure Opts where
  attach : Option String
  to : Option String
  alt : Bool
deriving DecidableEq

/-- The part of RumState fixed here. Column numbers are 1-based, `none` = InvalidAttrNumber. -/
structure State where
  attach : Option Nat
  addTo : Option Nat
  alt : Bool
  /-- additional info type of each column (`rumConfig->addInfoTypeOid`) -/
  info : List (Option Nat)
deriving DecidableEq

inductive Err where
  | notInTable | notInIndex | sameColumn | bothNeeded | targetHasInfo | byReference | noCompare
deriving DecidableEq, Repr

/-- `get_attnum`: 1-based position of a name. -/
def attnum (names : List String) (n : String) : Option Nat :=
  (names.findIdx? (· == n)).map (· + 1)

/-- `rumutil.c:184-199` / `201-217`: resolve a column named in an option. -/
def resolve (table : List String) (cols : List Col) (n : String) : Except Err Nat :=
  match attnum table n with
  | none => .error .notInTable
  | some _ =>
    match attnum (cols.map (·.name)) n with
    | none => .error .notInIndex
    | some k => .ok k

/-- The option block of initRumState, `rumutil.c:178-231`. -/
def readOptions (table : List String) (cols : List Col) (o : Opts) :
    Except Err (Option Nat × Option Nat × Bool) := do
  let attach ← match o.attach with
    | some n => (resolve table cols n).map some
    | none => .ok none
  let to ← match o.to with
    | some n => do
      let k ← resolve table cols n
      if some k = attach then .error .sameColumn else .ok (some k)
    | none => .ok none
  if !(attach.isSome && to.isSome) then .error .bothNeeded
  else if o.alt then
    if !(attach.isSome && to.isSome) then .error .bothNeeded
    else .ok (attach, to, true)
  else .ok (attach, to, false)

/-- One turn of the column loop, `rumutil.c:233-310`; `i` is 0-based.  Returns the column's
additional info type. -/
def column (cols : List Col) (attach addTo : Option Nat) (alt : Bool) (i : Nat) (c : Col) :
    Except Err (Option Nat) := do
  let info ←
    if addTo = some (i + 1) then
      match attach with
      | none => .ok none   -- unreachable: both columns are set together
      | some a =>
        match cols[a - 1]? with
        | none => .ok none -- unreachable: `a` is an index column
        | some ac =>
          if c.ownInfo.isSome then .error .targetHasInfo
          else if alt && !ac.byval then .error .byReference
          else .ok (some ac.typid)
    else .ok c.ownInfo
  if c.hasCmp then .ok info else .error .noCompare

/-- The column loop, `rumutil.c:233-443`. -/
def columns (cols : List Col) (attach addTo : Option Nat) (alt : Bool) :
    Nat → List Col → Except Err (List (Option Nat))
  | _, [] => .ok []
  | i, c :: rest => do
    let x ← column cols attach addTo alt i c
    let xs ← columns cols attach addTo alt (i + 1) rest
    .ok (x :: xs)

/-- initRumState; `opts = none` is `index->rd_options == NULL`. -/
def initRumState (table : List String) (cols : List Col) (opts : Option Opts) : Except Err State := do
  let (attach, addTo, alt) ← match opts with
    | none => .ok (none, none, false)
    | some o => readOptions table cols o
  let info ← columns cols attach addTo alt 0 cols
  .ok { attach := attach, addTo := addTo, alt := alt, info := info }

end Rum.Options
