import Verif.CodecLemmas
/-
Inverted full-text search: an index over tsquery values, searched with a tsvector (/repo/src/rumtsquery.c).
-/
namespace Rum.Inv

/-! ### Variable-byte integers -/

/-- encode_varbyte, /repo/src/rumtsquery.c:211-224. -/
def encodeVar (val : Nat) : List Nat :=
  if _h : val > 0x7f then (0x80 ||| (val &&& 0x7f)) :: encodeVar (val >>> 7) else [val]
termination_by val
decreasing_by rw [Nat.shiftRight_eq_div_pow]; omega

/-- The nested `if`s of decode_varbyte as a loop: `k` more continuation bytes may follow.
`none`: the read runs past the end of the stored value. -/
def decodeGo : Nat → Nat → Nat → List Nat → Option (Nat × List Nat)
  | _, _, _, [] => none
  | k, shift, val, c :: rest =>
    let val' := val ||| (((c &&& 0x7f) <<< shift) % 2 ^ 32)
    match k with
    | 0 => some (val', rest)
    | k + 1 => if c &&& 0x80 ≠ 0 then decodeGo k (shift + 7) val' rest else some (val', rest)

/-- decode_varbyte, /repo/src/rumtsquery.c:229-263 (at most five bytes). -/
def decodeVar (bs : List Nat) : Option (Nat × List Nat) := decodeGo 4 0 0 bs

/-! ### Queries and their wraps -/

variable {L : Type} [DecidableEq L]

/-- A tsquery as a tree (the flat `QueryItem` array with `left` offsets is read as the tree it encodes).
`prefix` operands and phrase operators make indexing fail. -/
inductive Query (L : Type) where
  | val (l : L)
  | prefixVal (l : L)
  | not (q : Query L)
  | and (l r : Query L)
  | or (l r : Query L)
  | phrase (l r : Query L)

/-- A list of `QueryItemWrap`s in first-child / next-sibling form: each constructor is the first wrap of the list,
`rest` is the rest of the list, `kids` the `operands` of an operator wrap (/repo/src/rumtsquery.c:26-38).
`isAnd` is `oper == OP_AND`. -/
inductive Wraps (L : Type) where
  | nil
  | val (l : L) (neg : Bool) (rest : Wraps L)
  | op (num : Nat) (sum : Int) (isAnd : Bool) (kids : Wraps L) (rest : Wraps L)

/-- make_query_item_wrap, /repo/src/rumtsquery.c:60-118: De Morgan and flattening. The result is the list of wraps
added to the parent, in front of the wraps `rest` that are added after them. `parent` is the parent's operator.
`none`: the elog(ERROR) cases. `num` and `sum` are zero (palloc0) until calc_wraps. -/
def makeWraps : Query L → Option Bool → Bool → Wraps L → Option (Wraps L)
  | .val l, _, neg, rest => some (.val l neg rest)
  | .prefixVal _, _, _, _ => none
  | .not q, parent, neg, rest => makeWraps q parent (!neg) rest
  | .and l r, parent, neg, rest =>
    let oper := !neg
    if parent = some oper then (makeWraps r parent neg rest).bind (makeWraps l parent neg)
    else ((makeWraps r (some oper) neg .nil).bind (makeWraps l (some oper) neg)).map (fun k => .op 0 0 oper k rest)
  | .or l r, parent, neg, rest =>
    let oper := neg
    if parent = some oper then (makeWraps r parent neg rest).bind (makeWraps l parent neg)
    else ((makeWraps r (some oper) neg .nil).bind (makeWraps l (some oper) neg)).map (fun k => .op 0 0 oper k rest)
  | .phrase _ _, _, _, _ => none

/-- `notCount`: operands with the `not` flag, /repo/src/rumtsquery.c:130-136 (only values carry it). -/
def Wraps.notCount : Wraps L → Int
  | .nil => 0
  | .val _ neg rest => (if neg then 1 else 0) + rest.notCount
  | .op _ _ _ _ rest => rest.notCount

/-- `list_length(wrap->operands)`. -/
def Wraps.length : Wraps L → Int
  | .nil => 0
  | .val _ _ rest => 1 + rest.length
  | .op _ _ _ _ rest => 1 + rest.length

/-- The `sum` of an operator, /repo/src/rumtsquery.c:141-144. -/
def initSum (isAnd : Bool) (kids : Wraps L) : Int :=
  if isAnd then kids.notCount + 1 - kids.length else kids.notCount

/-- calc_wraps, /repo/src/rumtsquery.c:123-159, on a list of siblings: numbers the operators in preorder from `k`,
sets their sums; returns the next number. (The returned count of values is only used to size arrays.) -/
def calcWraps : Wraps L → Nat → Wraps L × Nat
  | .nil, k => (.nil, k)
  | .val l neg rest, k => let r := calcWraps rest k; (.val l neg r.1, r.2)
  | .op _ _ a kids rest, k =>
    let ks := calcWraps kids (k + 1)
    let r := calcWraps rest ks.2
    (.op k (initSum a kids) a ks.1 r.1, r.2)

/-- check_allnegative, /repo/src/rumtsquery.c:165-203, for the members of an operand list combined by AND
(`isAnd`) or OR. -/
def allNegative : Bool → Wraps L → Bool
  | isAnd, .nil => isAnd
  | isAnd, .val _ neg rest => if isAnd then (if neg then allNegative isAnd rest else false)
      else (if neg then true else allNegative isAnd rest)
  | isAnd, .op _ _ a kids rest => if isAnd then (if allNegative a kids then allNegative isAnd rest else false)
      else (if allNegative a kids then true else allNegative isAnd rest)

/-- check_allnegative of the root wrap (a one-element list). -/
def rootAllNegative (w : Wraps L) : Bool := allNegative true w

/-- The encoded `sum` with its two flag bits, /repo/src/rumtsquery.c:324-329. -/
def encSum (sum : Int) (neg : Bool) : Nat :=
  (sum.natAbs <<< 2) ||| (if sum < 0 then 2 else 0) ||| (if neg then 1 else 0)

/-- The rest of the path above the first operator: only values carry the `not` flag. -/
def encodeUp : List (Nat × Int) → List Nat
  | [] => []
  | (n, s) :: up => encodeVar n ++ encodeVar (encSum s false) ++ encodeUp up

/-- Path from a value to the root, /repo/src/rumtsquery.c:316-338. `up` are the (num, sum) of the operators above, nearest
first; empty `up` is `level == 0`. -/
def encodePath (neg : Bool) : List (Nat × Int) → List Nat
  | [] => if neg then encodeVar 1 ++ encodeVar (4 ||| 1) else []
  | (n, s) :: up => encodeVar n ++ encodeVar (encSum s neg) ++ encodeUp up

/-- Looking up a lexeme among those already extracted, then adding or extending, /repo/src/rumtsquery.c:287-315. -/
def addEntry (l : L) (bs : List Nat) : List (L × List Nat) → List (L × List Nat)
  | [] => [(l, bs)]
  | (l', bs') :: es => if l = l' then (l', bs' ++ bs) :: es else (l', bs') :: addEntry l bs es

/-- extract_wraps, /repo/src/rumtsquery.c:277-350. -/
def extractWraps : Wraps L → List (Nat × Int) → List (L × List Nat) → List (L × List Nat)
  | .nil, _, acc => acc
  | .val l neg rest, up, acc => extractWraps rest up (addEntry l (encodePath neg up) acc)
  | .op n s _ kids rest, up, acc => extractWraps rest up (extractWraps kids ((n, s) :: up) acc)

/-- The index entries of one stored query: lexemes with their additional info, and whether the NULL entry is
extracted too. -/
structure Entries (L : Type) where
  lex : List (L × List Nat)
  null : Bool

/-- ruminv_extract_tsquery, /repo/src/rumtsquery.c:352-403. -/
def extractQuery (q : Query L) : Option (Entries L) :=
  match makeWraps q none false .nil with
  | none => none
  | some w0 =>
    let w := (calcWraps w0 1).1
    some ⟨extractWraps w [] [], rootAllNegative w⟩

/-! ### The consistent function -/

/-- `TmpNode`, /repo/src/rumtsquery.c:452-457. -/
structure Node where
  sum : Int
  parent : Int
  neg : Bool

/-- The array `nodes[256]` (uninitialised at the start), `lastIndex` and `child`. -/
structure St where
  nodes : Nat → Node
  last : Nat
  child : Option Nat

def setNode (f : Nat → Node) (i : Nat) (n : Node) : Nat → Node := fun j => if j = i then n else f j

/-- `child->parent = index; child->not = not`, /repo/src/rumtsquery.c:522-526. -/
def setParent (f : Nat → Node) (c index : Nat) (neg : Bool) : Nat → Node :=
  setNode f c { f c with parent := index, neg := neg }

/-- `while (num > lastIndex) nodes[lastIndex++].parent = -2`, /repo/src/rumtsquery.c:528-532. -/
def grow (f : Nat → Node) (last num : Nat) : Nat → Node :=
  fun i => if last ≤ i ∧ i < num then { f i with parent := -2 } else f i

/-- First visit of a node, /repo/src/rumtsquery.c:534-539. -/
def initNode (f : Nat → Node) (i : Nat) (sum : Int) : Nat → Node :=
  if (f i).parent = -2 then setNode f i ⟨sum, -1, false⟩ else f

/-- The lexeme's own contribution, /repo/src/rumtsquery.c:540-546. -/
def bump (f : Nat → Node) (i : Nat) (neg : Bool) : Nat → Node :=
  setNode f i { f i with sum := if neg then (f i).sum - 1 else (f i).sum + 1 }

/-- One round of the `while (ptr < ptrEnd)` loop, /repo/src/rumtsquery.c:508-552. `none`: access outside
`nodes[256]` (undefined behaviour). -/
def stepElem (st : St) (num sumVal : Nat) : Option St :=
  if num = 0 ∨ num > 256 then none
  else
    let neg : Bool := sumVal &&& 1 ≠ 0
    let s : Int := Int.ofNat (sumVal >>> 2)
    let sum : Int := if sumVal &&& 2 ≠ 0 then -s else s
    let index := num - 1
    let n1 := match st.child with
      | some c => setParent st.nodes c index neg
      | none => st.nodes
    let n3 := initNode (grow n1 st.last num) index sum
    let n4 := match st.child with
      | none => bump n3 index neg
      | some _ => n3
    some ⟨n4, max st.last num, if index = 0 then none else some index⟩

/-- The loop over one additional info value, /repo/src/rumtsquery.c:508-553. The fuel is the number of bytes. -/
def pathLoop : Nat → St → List Nat → Option St
  | _, st, [] => some st
  | 0, _, _ :: _ => none
  | fuel + 1, st, b :: bs =>
    match decodeVar (b :: bs) with
    | none => none
    | some (num, r1) =>
      match decodeVar r1 with
      | none => none
      | some (sumVal, r2) =>
        match stepElem st num sumVal with
        | none => none
        | some st' => pathLoop fuel st' r2

/-- The loop over the keys of the document, /repo/src/rumtsquery.c:482-554. Each key is `none` when `!check[i]`,
otherwise its additional info. Result: final state, `res`, `allFalse`. -/
def keyLoop : List (Option (List Nat)) → St → Bool → Option (St × Bool × Bool)
  | [], st, allFalse => some (st, false, allFalse)
  | none :: ks, st, allFalse => keyLoop ks st allFalse
  | some bs :: ks, st, _ =>
    if bs.length = 0 then some (st, true, false)
    else match pathLoop bs.length { st with child := none } bs with
      | none => none
      | some st' => keyLoop ks st' false

/-- The loop over the nodes, /repo/src/rumtsquery.c:563-583; `k` nodes are left. -/
def nodeLoop : Nat → (Nat → Node) → Bool → Bool
  | 0, _, res => res
  | i + 1, f, res =>
    if (f i).parent ≠ -2 then
      if (f i).sum > 0 then
        if (f i).parent = -1 then true
        else
          let p := (f i).parent.toNat
          nodeLoop i (setNode f p { f p with sum := (f p).sum + (if (f i).neg then -1 else 1) }) res
      else nodeLoop i f res
    else nodeLoop i f res

/-- ruminv_tsvector_consistent, /repo/src/rumtsquery.c:459-587. `keys` are the document's lexemes, `nullCheck` is
`check[nkeys - 1]`, `junk` the uninitialised stack array. -/
def consistent (junk : Nat → Node) (keys : List (Option (List Nat))) (nullCheck : Bool) : Option Bool :=
  match keyLoop keys ⟨junk, 0, none⟩ true with
  | none => none
  | some (st, res, allFalse) =>
    if allFalse && nullCheck then some true else some (nodeLoop st.last st.nodes res)

/-- Searching the index row of query `q` with a document (its distinct lexemes in order):
ruminv_extract_tsvector gives one entry per lexeme plus the NULL entry
(/repo/src/rumtsquery.c:405-447); an empty tsvector gives no entries in the default search mode, hence no rows. -/
def searchRow (junk : Nat → Node) (q : Query L) (doc : List L) : Option Bool :=
  match extractQuery q with
  | none => none
  | some es =>
    if doc = [] then some false
    else consistent junk (doc.map (fun l => es.lex.lookup l)) es.null

/-! ### Specification -/

/-- Meaning of a boolean query on a document. -/
def Query.eval (doc : L → Bool) : Query L → Bool
  | .val l => doc l
  | .prefixVal l => doc l
  | .not q => !q.eval doc
  | .and l r => l.eval doc && r.eval doc
  | .or l r => l.eval doc || r.eval doc
  | .phrase _ _ => false

/-- Only plain words, NOT, AND, OR (what the index accepts). -/
def Query.Plain : Query L → Prop
  | .val _ => True
  | .prefixVal _ => False
  | .not q => q.Plain
  | .and l r => l.Plain ∧ r.Plain
  | .or l r => l.Plain ∧ r.Plain
  | .phrase _ _ => False

/-- A query with other operands. make_query_item_wrap keeps of an operand only its text (`distance`, `length`, /repo/src/rumtsquery.c:63-76), so a
query whose operands carry weights is indexed as the query `q.map Prod.fst` without them. -/
def Query.map {L M : Type} (f : L → M) : Query L → Query M
  | .val l => .val (f l)
  | .prefixVal l => .prefixVal (f l)
  | .not q => .not (q.map f)
  | .and l r => .and (l.map f) (r.map f)
  | .or l r => .or (l.map f) (r.map f)
  | .phrase l r => .phrase (l.map f) (r.map f)

/-- Number of items of the query. -/
def Query.size : Query L → Nat
  | .val _ => 1
  | .prefixVal _ => 1
  | .not q => q.size + 1
  | .and l r => l.size + r.size + 1
  | .or l r => l.size + r.size + 1
  | .phrase l r => l.size + r.size + 1

/-- Number of AND/OR operators. -/
def Query.ops : Query L → Nat
  | .val _ => 0
  | .prefixVal _ => 0
  | .not q => q.ops
  | .and l r => l.ops + r.ops + 1
  | .or l r => l.ops + r.ops + 1
  | .phrase l r => l.ops + r.ops + 1

end Rum.Inv
