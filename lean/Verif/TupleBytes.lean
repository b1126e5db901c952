import Verif.EntryTree
import Verif.IndexVacuum
/-!
# Bytes of the tuples of the entry tree

RumFormTuple (`/repo/src/ruminsert.c:118-247`, `/repo/src/rumvacuum.c:102-205`), RumFormInteriorTuple (`/repo/src/rumentrypage.c:67-104`), the access
macros (`/repo/src/rum.h:216-264`) and rumtuple_get_attrnum, rumtuple_get_key (`/repo/src/rumutil.c:449-516`).

A tuple is PostgreSQL's IndexTupleData: `t_tid` (block number, offset number), `t_info` (13 bits size, a bit "has nulls", a bit "has variable width
attributes"), then, if it has nulls, the null bitmap (4 bytes, and 4 more up to the next multiple of 8), then the attributes, padded to a multiple of 8.

Simplifications: the bytes PostgreSQL uses for a key that is not NULL (alignment, compression, short headers) are a parameter `area` with their decoder;
the header is kept as numbers of its width and not as bytes; `body` are the bytes from offset 8 on. Writing outside of the tuple is `none`.
-/
namespace Rum.Index
open Rum Rum.Codec Rum.Leaf Rum.Entry Rum.Tree

variable {V : Type}

/-- IndexTupleData of PostgreSQL. -/
structure Tup where
  blk : Nat
  off : Nat
  info : Nat
  body : List Nat
deriving DecidableEq

/-- IndexTupleSize: INDEX_SIZE_MASK is 0x1FFF. -/
def Tup.size (t : Tup) : Nat := t.info &&& 0x1fff

/-- IndexTupleHasNulls: INDEX_NULL_MASK is 0x8000. -/
def Tup.hasNulls (t : Tup) : Bool := t.info &&& 0x8000 != 0

/-- IndexInfoFindDataOffset, less the 8 bytes of the header. -/
def Tup.dataOff (t : Tup) : Nat := if t.hasNulls then 8 else 0

/-- How PostgreSQL stores the tuples of an index: `oneCol` of RumState, whether the tuple descriptor of a column has variable width attributes, the bytes
of a key (with the padding before it) and their decoder. -/
structure Fmt (V : Type) where
  oneCol : Bool
  var : Nat → Bool
  area : Nat → V → List Nat
  dec : Nat → List Nat → V

/-- The attributes of a tuple: the column number in a multicolumn index, and the key if it is not NULL (`/repo/src/ruminsert.c:130-142`). -/
def Fmt.data (F : Fmt V) (k : AttKey V) : List Nat :=
  (if F.oneCol then [] else leBytes 2 k.attnum) ++ (if k.cat = .norm then F.area k.attnum k.key else [])

/-- The null bitmap (a bit is set if the attribute is there) and the padding after it. -/
def Fmt.nulls (F : Fmt V) (k : AttKey V) : List Nat :=
  if k.cat = .norm then [] else [if F.oneCol then 0 else 1, 0, 0, 0, 0, 0, 0, 0]

/-- index_form_tuple of PostgreSQL as RumFormTuple calls it, `/repo/src/ruminsert.c:144`; `none` is the error "index row requires too many bytes". -/
def Fmt.formBase (F : Fmt V) (k : AttKey V) : Option Tup :=
  let used := F.nulls k ++ F.data k
  let size := 8 + alignUp 8 used.length
  if size > 0x1fff then none
  else some ⟨0, 0, size ||| ((if k.cat = .norm then 0 else 0x8000) ||| (if F.var k.attnum then 0x4000 else 0)),
    used ++ List.replicate (size - 8 - used.length) 0⟩

/-- rumtuple_get_attrnum, `/repo/src/rumutil.c:449-477`. -/
def Fmt.attnum (F : Fmt V) (t : Tup) : Nat := if F.oneCol then 1 else leNat ((t.body.drop t.dataOff).take 2)

/-- RumGetNullCategory, `/repo/src/rum.h:224-225`: the last byte of the tuple; a value that is no category is `none`. -/
def Tup.category (t : Tup) : Option Cat :=
  match t.body[t.size - 8 - 1]? with
  | some 0 => some .norm
  | some 1 => some .nullKey
  | some 2 => some .emptyItem
  | some 3 => some .nullItem
  | some 255 => some .emptyQuery
  | _ => none

/-- index_getattr tests the null bitmap for the attribute of the key (the first or the second). -/
def Fmt.keyNull (F : Fmt V) (t : Tup) : Bool :=
  t.hasNulls && (match t.body[0]? with | some b => b &&& (if F.oneCol then 1 else 2) == 0 | none => true)

/-- rumtuple_get_key, `/repo/src/rumutil.c:482-516`: the category, and the key if it is not NULL. -/
def Fmt.key (F : Fmt V) (t : Tup) : Option (Cat × Option V) :=
  if F.keyNull t then t.category.map (fun c => (c, none))
  else some (.norm, some (F.dec (F.attnum t) (t.body.drop (t.dataOff + if F.oneCol then 0 else 2))))

/-- RumSetPostingOffset and RumSetNPosting, `/repo/src/rum.h:232-233, 241-242`: 32 and 16 bits wide. -/
def Tup.setPosting (t : Tup) (off n : Nat) : Tup := { t with blk := off % 2 ^ 32, off := n % 2 ^ 16 }

/-- RumSetPostingTree, `/repo/src/rum.h:236-238`. -/
def Tup.setTree (t : Tup) (b : Nat) : Tup := { t with blk := b % 2 ^ 32, off := 0xffff }

/-- RumIsPostingTree, `/repo/src/rum.h:235`. -/
def Tup.isTree (t : Tup) : Bool := t.off == 0xffff

/-- The tuple is made longer, `/repo/src/ruminsert.c:208-217`: zeroes at the end, the new size in the header. -/
def Tup.resize (t : Tup) (n : Nat) : Tup :=
  if n ≠ t.size then { t with info := (t.info &&& 0xe000) ||| n, body := t.body ++ List.replicate (n - t.size) 0 } else t

/-- Bytes copied into the tuple at offset `off`, `/repo/src/ruminsert.c:222-232`. -/
def Tup.write (t : Tup) (off : Nat) (bs : List Nat) : Option Tup :=
  if off < 8 ∨ 8 + t.body.length < off + bs.length then none
  else some { t with body := t.body.take (off - 8) ++ bs ++ t.body.drop (off - 8 + bs.length) }

/-- The byte of a category (`signed char`). -/
def Cat.byte : Cat → Nat
  | .norm => 0
  | .nullKey => 1
  | .emptyItem => 2
  | .nullItem => 3
  | .emptyQuery => 255

/-- RumSetNullCategory, `/repo/src/rum.h:226-227`. -/
def Tup.setCat (t : Tup) (c : Cat) : Option Tup :=
  if t.size < 9 ∨ 8 + t.body.length < t.size then none else some { t with body := t.body.set (t.size - 8 - 1) (Cat.byte c) }

/-- The end of both RumFormTuple functions, `/repo/src/ruminsert.c:186-246`, `/repo/src/rumvacuum.c:150-204`: `n` items in `bytes`, which end at `last`. -/
def Tup.finish (t : Tup) (c : Cat) (n : Nat) (bytes : List Nat) (last : Nat) : Option Tup :=
  let newsize := alignUp 8 (last + if c = .norm then 0 else 1)
  if newsize > maxTuple then none
  else ((if n > 0 then (t.resize newsize).write t.blk bytes else some (t.resize newsize)).bind
    (fun u => if c = .norm then some u else u.setCat c))

/-- RumFormTuple, `/repo/src/ruminsert.c:118-247`; `none` is NULL or an error. -/
def Fmt.formTuple (F : Fmt V) (c : Cfg) (k : AttKey V) (its : List (Item Datum)) : Option Tup :=
  match F.formBase k, placeList c ((F.formBase k).map Tup.size |>.getD 0) ⟨0, 0⟩ its with
  | some t, some bytes => (t.setPosting t.size its.length).finish k.cat its.length bytes (checkList c ⟨0, 0⟩ t.size its)
  | _, _ => none

/-- RumFormTuple of VACUUM, `/repo/src/rumvacuum.c:102-205`. -/
def Fmt.formBytes (F : Fmt V) (k : AttKey V) (bytes : List Nat) (n : Nat) : Option Tup :=
  match F.formBase k with
  | some t => (t.setPosting t.size n).finish k.cat n bytes (t.size + if n > 0 then bytes.length else 0)
  | none => none

/-- A tuple for a posting tree, `/repo/src/ruminsert.c:325-327`: RumFormTuple without items, then RumSetPostingTree. -/
def Fmt.formTree (F : Fmt V) (c : Cfg) (k : AttKey V) (b : Nat) : Option Tup := (F.formTuple c k []).map (fun t => t.setTree b)

/-- rumReadTuple, `/repo/src/rumentrypage.c:21-38`, with RumGetPosting and RumGetNPosting. -/
def Tup.items (c : Cfg) (t : Tup) : Option (List (Item Datum)) :=
  if t.blk < 8 then none else (readList c t.blk ⟨0, 0⟩ t.off (t.body.drop (t.blk - 8))).map Prod.fst

/-- RumFormInteriorTuple, `/repo/src/rumentrypage.c:67-104`; `leaf` tells whether the tuple is on a leaf page. -/
def Fmt.formInner (F : Fmt V) (t : Tup) (leaf : Bool) (child : Nat) : Option Tup :=
  let u : Tup := if leaf && !t.isTree then
      { t with info := (t.info &&& 0xe000) ||| alignUp 8 t.blk, body := t.body.take (alignUp 8 t.blk - 8) } else t
  let u := { u with blk := child % 2 ^ 32, off := 0 }
  match F.key t with
  | some (.norm, _) => some u
  | some (c, _) => { u with info := u.info ||| 0x8000 }.setCat c
  | none => none

end Rum.Index
