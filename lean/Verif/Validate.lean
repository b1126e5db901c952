/-!
# Model of operator class validation: `rumvalidate` (`/repo/src/rumvalidate.c:33-353`)

The system catalogs are an arbitrary value; the two PostgreSQL helpers `check_amproc_signature`,
`check_amop_signature` and `identify_opfamily_groups` are modelled from PostgreSQL's
`amvalidate.c`.
-/
namespace Rum.Validate

/-! Type OIDs used by the validator (PostgreSQL `pg_type_d.h`). -/
def INT4 : Nat := 23
def INT2 : Nat := 21
def BOOL : Nat := 16
def FLOAT4 : Nat := 700
def FLOAT8 : Nat := 701
def VOID : Nat := 2278
def BYTEA : Nat := 17
def INTERNAL : Nat := 2281
def TSVECTOR : Nat := 3614
def TSQUERY : Nat := 3615
def ANYARRAY : Nat := 2277
def TIMESTAMP : Nat := 1114
def TIMESTAMPTZ : Nat := 1184

/-- A `pg_amproc` row. -/
structure ProcRow where
  left : Nat
  right : Nat
  num : Int
  fn : Nat

/-- A `pg_amop` row; `orderBy` is `amoppurpose == AMOP_ORDER`. -/
structure OprRow where
  left : Nat
  right : Nat
  strategy : Int
  orderBy : Bool
  op : Nat

/-- A `pg_proc` row. -/
structure FnSig where
  ret : Nat
  retset : Bool
  args : List Nat

/-- A `pg_operator` row. -/
structure OpSig where
  isBinary : Bool
  result : Nat
  left : Nat
  right : Nat

/-- The catalogs as far as the validator reads them. `coercible` is `IsBinaryCoercible`;
`ordered` says that the catcache lists are sorted (`identify_opfamily_groups` gives up otherwise). -/
structure Catalog where
  procs : List ProcRow
  oprs : List OprRow
  fn : Nat → FnSig
  op : Nat → OpSig
  coercible : Nat → Nat → Bool
  ordered : Bool

/-- The operator class: `opcintype` and `opckeytype` (0 = InvalidOid). -/
structure OpClass where
  intype : Nat
  keytype : Nat

/-- check_amproc_signature with `exact = false` (PostgreSQL amvalidate.c). -/
def checkAmproc (cat : Catalog) (fn : Nat) (ret min max : Nat) (args : List Nat) : Bool :=
  let s := cat.fn fn
  (s.ret == ret) && !s.retset && decide (min ≤ s.args.length) && decide (s.args.length ≤ max) &&
    (List.zip (args.take max) s.args).all (fun p => cat.coercible p.1 p.2)

/-- check_amop_signature. -/
def checkAmop (cat : Catalog) (op ret left right : Nat) : Bool :=
  let s := cat.op op
  (s.result == ret) && s.isBinary && (s.left == left) && (s.right == right)

/-- `opckeytype` after defaulting, `rumvalidate.c:66-67`. -/
def keytype (c : OpClass) : Nat := if c.keytype = 0 then c.intype else c.keytype
/-- `opcintype_overload`, `rumvalidate.c:71-72`. -/
def intypeO (c : OpClass) : Nat := if c.intype = TIMESTAMPTZ then TIMESTAMP else c.intype
/-- `opckeytype_overload`, `rumvalidate.c:73-74`. -/
def keytypeO (c : OpClass) : Nat := if keytype c = TIMESTAMPTZ then TIMESTAMP else keytype c

/-- The `switch` on the support number, `rumvalidate.c:113-224`: `none` is the `default` branch. -/
def checkSupport (cat : Catalog) (c : OpClass) (num : Int) (fn : Nat) : Option Bool :=
  if num = 1 then some (checkAmproc cat fn INT4 2 2 [keytype c, keytype c])
  else if num = 2 then
    some (checkAmproc cat fn INTERNAL 2 5 [intypeO c, INTERNAL, INTERNAL, INTERNAL, INTERNAL])
  else if num = 3 then
    let q := if c.intype = TSVECTOR then TSQUERY else if c.intype = TSQUERY then TSVECTOR else intypeO c
    some (checkAmproc cat fn INTERNAL 5 7 [q, INTERNAL, INT2, INTERNAL, INTERNAL, INTERNAL, INTERNAL])
  else if num = 4 then
    let q := if c.intype = TSQUERY then TSVECTOR
      else if c.intype = TSVECTOR ∨ c.intype = TIMESTAMP ∨ c.intype = TIMESTAMPTZ ∨ c.intype = ANYARRAY
        then intypeO c
      else INTERNAL
    some (checkAmproc cat fn BOOL 6 8
      [INTERNAL, INT2, q, INT4, INTERNAL, INTERNAL, INTERNAL, INTERNAL])
  else if num = 5 then
    some (checkAmproc cat fn INT4 4 4 [keytypeO c, keytypeO c, INT2, INTERNAL])
  else if num = 6 then some (checkAmproc cat fn VOID 1 1 [INTERNAL])
  else if num = 7 then
    some (checkAmproc cat fn BOOL 8 8
      [INTERNAL, INT2, c.intype, INT4, INTERNAL, INTERNAL, INTERNAL, INTERNAL])
  else if num = 8 then
    if c.intype = TSVECTOR ∨ c.intype = ANYARRAY then
      some (checkAmproc cat fn FLOAT8 9 9
        [INTERNAL, INT2, c.intype, INT4, INTERNAL, INTERNAL, INTERNAL, INTERNAL, INTERNAL, INTERNAL])
    else some (checkAmproc cat fn FLOAT8 3 3 [c.intype, c.intype, INT2])
  else if num = 9 then some (checkAmproc cat fn FLOAT8 3 3 [intypeO c, intypeO c, INT2])
  else if num = 10 then some (checkAmproc cat fn BYTEA 2 2 [INTERNAL, INTERNAL])
  else none

/-- One turn of the support function loop, `rumvalidate.c:89-236`: the new `result`. -/
def procStep (cat : Catalog) (c : OpClass) (result : Bool) (p : ProcRow) : Bool :=
  let result := if p.left ≠ p.right then false else result
  if p.left ≠ c.intype then result
  else
    match checkSupport cat c p.num p.fn with
    | none => false
    | some ok => if !ok then false else result

/-- One turn of the operator loop, `rumvalidate.c:239-296`. -/
def oprStep (cat : Catalog) (result : Bool) (o : OprRow) : Bool :=
  let result := if o.strategy < 1 ∨ o.strategy > 63 then false else result
  if o.orderBy then
    if o.left = TSVECTOR ∧ !checkAmop cat o.op FLOAT4 o.left o.right then false
    else if o.left ≠ TSVECTOR ∧ !checkAmop cat o.op FLOAT8 o.left o.right then false
    else result
  else if !checkAmop cat o.op BOOL o.left o.right then false
  else result

/-- The group of `identify_opfamily_groups` whose types are both the class' input type
(`rumvalidate.c:299-320`): its `functionset` as a predicate, or `none` if there is no such group. -/
def opclassGroup (cat : Catalog) (c : OpClass) : Option (Nat → Bool) :=
  if !cat.ordered then none
  else if (cat.procs.any (fun p => p.left == c.intype && p.right == c.intype)) ||
      (cat.oprs.any (fun o => o.left == c.intype && o.right == c.intype)) then
    some (fun i => cat.procs.any (fun p =>
      p.left == c.intype && p.right == c.intype && decide (0 < p.num) && decide (p.num < 64) &&
        decide (p.num = (i : Int))))
  else none

/-- `opclassgroup && (opclassgroup->functionset & (1 << i)) != 0`. -/
def hasFn (g : Option (Nat → Bool)) (i : Nat) : Bool :=
  match g with
  | none => false
  | some f => f i

/-- One turn of the completeness loop, `rumvalidate.c:323-338`. -/
def completeStep (g : Option (Nat → Bool)) (result : Bool) (i : Nat) : Bool :=
  if hasFn g i then result
  else if i = 1 ∨ i = 5 then result
  else if i ≥ 6 then result
  else false

/-- rumvalidate. -/
def rumvalidate (cat : Catalog) (c : OpClass) : Bool :=
  let r1 := cat.procs.foldl (procStep cat c) true
  let r2 := cat.oprs.foldl (oprStep cat) r1
  let g := opclassGroup cat c
  let r3 := (List.range' 1 10).foldl (completeStep g) r2
  if !hasFn g 4 then false else r3

end Rum.Validate
