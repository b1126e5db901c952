import Verif.FullText
/-!
# Relevance of a document for a query (`/repo/src/rum_ts_utils.c:1434-2081`)

rum_ts_distance computes it from the document, the index (rum_tsquery_distance) from the positions it stores. Both fill an array of
DocRepresentation and share the rest. Floating-point arithmetic is abstract.
-/
namespace Rum.Rank
open Rum Rum.Codec Rum.Pos Rum.Ts Rum.FullText

variable {L F : Type}

/-- DocRepresentation, `/repo/src/rum_ts_utils.c:126-145`: the numbers of the `operandData` elements it stands for, the pointer that goes into the
hash of a cover (as an integer), position and weight class. -/
structure DocR where
  slots : List Nat
  ptr : Nat
  pos : Nat
  wclass : Nat
deriving DecidableEq, Repr

/-- `qr->operandData`: for each element whether it exists, and its `pos` (a WordEntryPos). -/
abbrev Data := Nat → Option Nat

/-- The memset at `/repo/src/rum_ts_utils.c:1499` and `:1553`. -/
def noData : Data := fun _ => none

/-- `operandexist = true` and WEP_SETPOS, WEP_SETWEIGHT for one element of the document, `/repo/src/rum_ts_utils.c:1510-1527`. -/
def setBoth (d : DocR) (x : Data) : Data := fun s => if s ∈ d.slots then some (d.wclass * 2 ^ 14 + d.pos) else x s

/-- The same in the second loop, `/repo/src/rum_ts_utils.c:1560-1575`: when called from the index (`idx`) only `operandexist` is set, the position
stays what it was (zero after the memset). -/
def setLow (idx : Bool) (d : DocR) (x : Data) : Data :=
  if idx then fun s => if s ∈ d.slots then some ((x s).getD 0) else x s else setBoth d x

/-- checkcondition_QueryOperand with a data pointer, `/repo/src/rum_ts_utils.c:1457-1482`. -/
def opPhrase (x : Data) (s : Nat) : TV × PData :=
  match x s with
  | none => (.no, {})
  | some p => (.yes, { pos := [p] })

/-- PostgreSQL's TS_phrase_execute with that callback (core code, modelled by assumption: like rum's own copy, `Ts.phraseExec`, but
TS_EXEC_SKIP_NOT makes NOT match everywhere). -/
def corePhrase (skipNot : Bool) (x : Data) : Query Nat → TV × PData
  | .val s _ => opPhrase x s
  | .not q => if skipNot then (.yes, { negate := true }) else notOutput (corePhrase skipNot x q)
  | .phrase d l r =>
    let A := corePhrase skipNot x l
    let B := corePhrase skipNot x r
    if A.1 = .no then (.no, {})
    else if B.1 = .no then (.no, {})
    else andOutput A.2 B.2 (d + B.2.width) 0 (d + A.2.width + B.2.width)
  | .and l r =>
    let A := corePhrase skipNot x l
    let B := corePhrase skipNot x r
    if A.1 = .no then (.no, {})
    else if B.1 = .no then (.no, {})
    else
      let mw := max A.2.width B.2.width
      andOutput A.2 B.2 (mw - A.2.width) (mw - B.2.width) mw
  | .or l r =>
    let A := corePhrase skipNot x l
    let B := corePhrase skipNot x r
    if A.1 = .no ∧ B.1 = .no then (.no, {})
    else
      let Ad := if A.1 = .no then { A.2 with width := 0 } else A.2
      let Bd := if B.1 = .no then { B.2 with width := 0 } else B.2
      let mw := max Ad.width Bd.width
      orOutput Ad Bd (mw - Ad.width) (mw - Bd.width) mw

/-- PostgreSQL's TS_execute with that callback (core code, modelled by assumption; the callback never answers TS_MAYBE). -/
def coreExec (skipNot : Bool) (x : Data) : Query Nat → Bool
  | .val s _ => (x s).isSome
  | .not q => if skipNot then true else !coreExec skipNot x q
  | .and l r => coreExec skipNot x l && coreExec skipNot x r
  | .or l r => coreExec skipNot x l || coreExec skipNot x r
  | .phrase d l r => (corePhrase skipNot x (.phrase d l r)).1 ≠ .no

/-- The first loop of Cover, `/repo/src/rum_ts_utils.c:1505-1547`: how many elements from here on have to be taken. -/
def upper (q : Query Nat) (x : Data) : List DocR → Option Nat
  | [] => none
  | d :: ds => if coreExec true (setBoth d x) q then some 0 else (upper q (setBoth d x) ds).map (· + 1)

/-- The second loop of Cover over the elements from the upper bound downwards, `/repo/src/rum_ts_utils.c:1558-1593`: how many were passed before the
one at which the query holds, and `operandData` then. -/
def lower (idx : Bool) (q : Query Nat) (x : Data) : List DocR → Option (Nat × Data)
  | [] => none
  | d :: ds => if coreExec false (setLow idx d x) q then some (0, setLow idx d x) else (lower idx q (setLow idx d x) ds).map (fun r => (r.1 + 1, r.2))

/-- A cover: the numbers of its first and last element, `operandData`. -/
structure Cover where
  first : Nat
  last : Nat
  data : Data

/-- Cover from `ext->pos`, `/repo/src/rum_ts_utils.c:1484-1606`: `none` if it returns false. A first element at position 0 is never accepted as upper
bound (`ptr->pos > ext->q`, `:1534`). Fuel: `ext->pos` grows with every restart. -/
def cover (idx : Bool) (q : Query Nat) (doc : List DocR) : Nat → Nat → Option Cover
  | 0, _ => none
  | n + 1, pos =>
    match upper q noData (doc.drop pos) with
    | none => none
    | some j =>
      match doc[pos + j]? with
      | none => none
      | some e =>
        if e.pos > 0 then
          match lower idx q noData ((doc.drop pos).take (j + 1)).reverse with
          | none => cover idx q doc n (pos + 1)
          | some (i, x) =>
            match doc[pos + j - i]? with
            | none => none
            | some b => if b.pos ≤ e.pos then some ⟨pos + j - i, pos + j, x⟩ else cover idx q doc n (pos + 1)
        else none

/-- All covers, the loop `while (Cover(...))` at `/repo/src/rum_ts_utils.c:1868`; after a cover the search goes on one element after its first
(`:1602`). -/
def covers (idx : Bool) (q : Query Nat) (doc : List DocR) : Nat → Nat → List Cover
  | 0, _ => []
  | n + 1, pos =>
    match cover idx q doc (doc.length + 1) pos with
    | none => []
    | some c => c :: covers idx q doc n (c.first + 1)

/-- The elements of a cover. -/
def Cover.elems (c : Cover) (doc : List DocR) : List DocR := (doc.drop c.first).take (c.last + 1 - c.first)

/-- The hash of a cover, `/repo/src/rum_ts_utils.c:1880-1893` (32 bits). -/
def coverKey (l : List DocR) : Nat := l.foldl (fun k d => (2 * k + d.ptr) % 2 ^ 32) 0

/-- Floating-point operations: `num` converts an integer, `weight` is `arrdata[wclass]`, `c` the constant 1.64493406685, `f4` the conversion to
float4. -/
structure Floats (F : Type) where
  num : Nat → F
  add : F → F → F
  mul : F → F → F
  div : F → F → F
  weight : Nat → F
  c : F
  f4 : F → F

/-- `nNoise`, `/repo/src/rum_ts_utils.c:1931-1933`, for the positions and number of elements of a cover. -/
def noise (p q n : Nat) : Nat := if q - p < n - 1 then (n - 1) / 2 else (q - p) - (n - 1)

/-- The contribution of a cover before it is divided by the square of its number within the group, `/repo/src/rum_ts_utils.c:1917-1936`. -/
def coverRank (o : Floats F) (len : Nat) (c : Cover) (l : List DocR) : F :=
  let inv := l.foldl (fun s d => o.add s (o.weight d.wclass)) (o.num 0)
  let nitems := ((List.range len).filter (fun s => (c.data s).isSome)).length
  let cpos := o.div (o.num l.length) inv
  let cpos := if nitems > 0 then o.mul cpos (o.num nitems) else cpos
  o.div cpos (o.num (1 + noise ((l.head?.map (·.pos)).getD 0) ((l.getLast?.map (·.pos)).getD 0) l.length))

/-- One group of covers: `cover_keys`, `cover_lengths`, `cover_ranks`. -/
structure CoverGroup (F : Type) where
  key : Nat
  count : Nat
  rank : F

/-- The search for the group of a cover and the addition to it, `/repo/src/rum_ts_utils.c:1897-1937`. -/
def addCover (o : Floats F) (key : Nat) (r : F) : List (CoverGroup F) → List (CoverGroup F)
  | [] => [⟨key, 1, o.add (o.num 0) (o.div (o.div (o.div r (o.num 1)) (o.num 1)) o.c)⟩]
  | g :: gs =>
    if g.key = key then ⟨key, g.count + 1, o.add g.rank (o.div (o.div (o.div r (o.num (g.count + 1))) (o.num (g.count + 1))) o.c)⟩ :: gs
    else g :: addCover o key r gs

/-- calc_score_docr with the default normalization (none), `/repo/src/rum_ts_utils.c:1847-1968`. -/
def scoreDocr (o : Floats F) (idx : Bool) (q : Query Nat) (len : Nat) (doc : List DocR) : F :=
  let groups := (covers idx q doc (doc.length + 1) 0).foldl (fun gs c => addCover o (coverKey (c.elems doc)) (coverRank o len c (c.elems doc)) gs) []
  o.f4 (groups.foldl (fun s g => o.add s g.rank) (o.num 0))

/-! ### The array from the document -/

/-- The operands in the order of the QueryItem array (an operator, its right operand, its left operand); `none` for operators. -/
def items {O : Type} : Query O → List (Option O)
  | .val o _ => [some o]
  | .not q => none :: items q
  | .and l r | .or l r | .phrase _ l r => none :: (items r ++ items l)

/-- The query with its operands replaced by their places in the QueryItem array. -/
def numbered {O : Type} : Nat → Query O → Query Nat
  | n, .val _ w => .val n w
  | n, .not q => .not (numbered (n + 1) q)
  | n, .and l r => .and (numbered (n + 1 + (items r).length) l) (numbered (n + 1) r)
  | n, .or l r => .or (numbered (n + 1 + (items r).length) l) (numbered (n + 1) r)
  | n, .phrase d l r => .phrase d (numbered (n + 1 + (items r).length) l) (numbered (n + 1) r)

/-- find_wordentry, `/repo/src/rum_ts_utils.c:1686-1728`: the words of the document an operand stands for. Simplification: the binary search is
taken to find them (the words of a tsvector are sorted). -/
def wordEntries [DecidableEq L] (begins : L → L → Bool) (v : TsVector L) (o : Opnd L) : TsVector L :=
  v.filter (fun w => if o.pre then begins o.lex w.1 else w.1 = o.lex)

/-- The items with the same lexeme as item `i`, `/repo/src/rum_ts_utils.c:1799-1818`. -/
def sameItems (cmpL : L → L → Ordering) (its : List (Option (Opnd L))) (i : Nat) (o : Opnd L) : List Nat :=
  (List.range its.length).filter (fun k => k = i ∨ (its[k]?.join.map (fun p => cmpOpnd cmpL p o == .eq)).getD false)

/-- The loop over the items in get_docrep, `/repo/src/rum_ts_utils.c:1749-1837`; `done` are the items with `operandexist`, `alloc` the number of
arrays allocated so far, `addr` their addresses. A word without positions counts as one at position 0. -/
def docLoop [DecidableEq L] (cmpL : L → L → Ordering) (begins : L → L → Bool) (addr : Nat → Nat) (v : TsVector L) (all : List (Option (Opnd L))) :
    Nat → List Nat → Nat → List (Option (Opnd L)) → List DocR
  | _, _, _, [] => []
  | i, seen, alloc, none :: its => docLoop cmpL begins addr v all (i + 1) seen alloc its
  | i, seen, alloc, some o :: its =>
    if i ∈ seen then docLoop cmpL begins addr v all (i + 1) seen alloc its
    else
      let es := wordEntries begins v o
      let slots := sameItems cmpL all i o
      (es.zipIdx alloc).flatMap (fun e => (e.1.2.getD [0]).map (fun x => ⟨slots, addr e.2, wepPos x, wepWeight x⟩)) ++
        docLoop cmpL begins addr v all (i + 1) (if es.isEmpty then seen else slots ++ seen) (alloc + es.length) its

/-- get_docrep, `/repo/src/rum_ts_utils.c:1730-1845`; `sort` is qsort by position. -/
def docrep [DecidableEq L] (cmpL : L → L → Ordering) (begins : L → L → Bool) (addr : Nat → Nat) (sort : List DocR → List DocR) (v : TsVector L)
    (q : Query (Opnd L)) : List DocR :=
  sort (docLoop cmpL begins addr v (items q) 0 [] 0 (items q))

/-- rum_ts_score(tsvector, tsquery), `/repo/src/rum_ts_utils.c:1998-2042` and `2170-2185`; the distance is its inverse, infinity for 0. -/
def score [DecidableEq L] (o : Floats F) (cmpL : L → L → Ordering) (begins : L → L → Bool) (addr : Nat → Nat) (sort : List DocR → List DocR) (v : TsVector L)
    (q : Query (Opnd L)) : F :=
  let doc := docrep cmpL begins addr sort v q
  if doc = [] then o.num 0 else scoreDocr o false (numbered 0 q) (items q).length doc

/-! ### The array from what the index stores -/

/-- The query with its operands replaced by the numbers of their entries (`map_item_operand`). -/
def keyed (cmpL : L → L → Ordering) (ops : List (Opnd L)) : Query (Opnd L) → Query Nat
  | .val o w => .val ((mapItem cmpL ops o).getD 0) w
  | .not q => .not (keyed cmpL ops q)
  | .and l r => .and (keyed cmpL ops l) (keyed cmpL ops r)
  | .or l r => .or (keyed cmpL ops l) (keyed cmpL ops r)
  | .phrase d l r => .phrase d (keyed cmpL ops l) (keyed cmpL ops r)

/-- The positions in a stored value, `/repo/src/rum_ts_utils.c:1640-1662`. -/
def storedPos (bs : List Nat) : List Nat := ((decompressN (countPos bs) 0 bs).getD ([], [])).1

/-- The loop over the items in get_docrep_addinfo, `/repo/src/rum_ts_utils.c:1620-1663`; `seen` are the entries already visited (`check` cleared).
`base` is the address of the QueryItem array, whose elements have 12 bytes. -/
def addinfoLoop (cmpL : L → L → Ordering) (ops : List (Opnd L)) (base : Nat) (v : List (Option (Option Datum))) :
    Nat → List Nat → List (Option (Opnd L)) → List DocR
  | _, _, [] => []
  | i, seen, none :: its => addinfoLoop cmpL ops base v (i + 1) seen its
  | i, seen, some o :: its =>
    let k := (mapItem cmpL ops o).getD 0
    if k ∈ seen then addinfoLoop cmpL ops base v (i + 1) seen its
    else match (v[k]?).join with
      | none => addinfoLoop cmpL ops base v (i + 1) seen its
      | some none => addinfoLoop cmpL ops base v (i + 1) (k :: seen) its
      | some (some d) => (storedPos (dataBytes d)).map (fun x => ⟨[k], base + 12 * i, wepPos x, wepWeight x⟩) ++
          addinfoLoop cmpL ops base v (i + 1) (k :: seen) its

/-- calc_score_addinfo, the score of rum_tsquery_distance, `/repo/src/rum_ts_utils.c:1970-1996` and `2048-2071`. -/
def scoreIndex (o : Floats F) (cmpL : L → L → Ordering) (osort : List (Opnd L) → List (Opnd L)) (base : Nat) (sort : List DocR → List DocR)
    (v : List (Option (Option Datum))) (q : Query (Opnd L)) : F :=
  let ops := sortAndUniq cmpL osort q
  let doc := sort (addinfoLoop cmpL ops base v 0 [] (items q))
  if doc = [] then o.num 0 else scoreDocr o true (keyed cmpL ops q) ops.length doc

end Rum.Rank
