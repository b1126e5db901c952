import Verif.Collect
import Verif.Positions
/-!
# The page inspection functions (/repo/src/rum_debug_funcs.c)

rum_page_items_info is a set-returning function: each call produces one row and keeps its position in RumPageItemsStateData. Modelled: the
calls on leaf pages of a posting tree (`rum_leaf_data_page_items_info`), on leaf pages of the entry tree (`rum_leaf_entry_page_items_info`) and on interior pages of a posting tree,
the search for the key a posting tree belongs to, and the text of word positions. A row is given by the values in it; their conversion to text by
the output functions of the types is not modelled, except for word positions. Blocks of posting trees are numbered per tree (as everywhere in this
model): block `b` of tree `t` is the pair `(t, b)`.
-/
namespace Rum.Debug
open Rum Rum.Codec Rum.Leaf Rum.Entry Rum.Tree Rum.Extract Rum.Index

variable {V : Type}

/-! ### Leaf pages of a posting tree -/

/-- A row of the listing of a leaf page of a posting tree: `is_high_key`, and TID and additional info. -/
structure DataRow where
  high : Bool
  item : Item Datum

/-- The state between the calls for a leaf page of a posting tree: `call_cntr`, the bytes from `itemPtr` on, the offset of `itemPtr`, and `curPitem.item.iptr`. -/
structure DataSt where
  cntr : Nat
  rest : List Nat
  off : Nat
  iptr : Iptr

/-- One call of rum_page_items_info for a leaf page of a posting tree (`/repo/src/rum_debug_funcs.c:1634-1649`) with data_page_get_next_result
(`:1060-1156`). `none`: read outside of the items; `some none`: no more rows. -/
def dataCall (c : Cfg) (maxoff : Nat) (bound : Item Datum) (d : DataSt) : Option (Option (DataRow × DataSt)) :=
  if d.cntr ≤ maxoff then
    if d.cntr = 0 then some (some (⟨true, bound⟩, { d with cntr := 1, iptr := bound.iptr }))
    else
      let prev : Iptr := if d.cntr = 1 then ⟨0, 0⟩ else d.iptr
      match readItem c d.off prev d.rest with
      | none => none
      | some (it, rest) => some (some (⟨false, it⟩, ⟨d.cntr + 1, rest, d.off + (d.rest.length - rest.length), it.iptr⟩))
  else some none

/-- The calls until there are no more rows (at most `n`). -/
def dataCalls (c : Cfg) (maxoff : Nat) (bound : Item Datum) : Nat → DataSt → Option (List DataRow)
  | 0, _ => none
  | n + 1, d =>
    match dataCall c maxoff bound d with
    | none => none
    | some none => some []
    | some (some (r, d')) => (dataCalls c maxoff bound n d').map (fun l => r :: l)

/-- The listing of a leaf page, given the column of its key; prepare_scan refuses any other kind of page (`/repo/src/rum_debug_funcs.c:409-416, 989-998`): `none`. -/
def dataPage (x : Ctx) (p : Tree.Page (Item Datum)) (n : Nat) : Option (List DataRow) :=
  if p.leaf && !p.deleted then
    match buildPage x.cfg p.items with
    | some q => dataCalls x.cfg q.maxoff p.bound n ⟨0, q.data, 0, ⟨0, 0⟩⟩
    | none => none
  else none

/-! ### Interior pages of a posting tree -/

/-- A row of the listing of an interior page of a posting tree: `is_high_key`, the child (`NULL` for the high key), and the key. -/
structure InnerRow where
  high : Bool
  child : Option Nat
  key : Item Datum

/-- The calls `cntr`, `cntr + 1`, … for an interior page of a posting tree, `/repo/src/rum_debug_funcs.c:1060-1156, 1634-1649`; RumReadKeyDataPage reads the downlink
at offset `call_cntr`. -/
def innerCalls (p : Tree.Page (Item Datum)) : Nat → Nat → Option (List InnerRow)
  | 0, _ => none
  | n + 1, cntr =>
    if cntr ≤ p.downs.length then
      if cntr = 0 then (innerCalls p n 1).map (fun l => ⟨true, none, p.bound⟩ :: l)
      else match p.downs[cntr - 1]? with
        | none => none
        | some d => (innerCalls p n (cntr + 1)).map (fun l => ⟨false, some d.2, d.1⟩ :: l)
    else some []

/-- The listing of an interior page, `none` if it is not one (`/repo/src/rum_debug_funcs.c:418-427, 999-1000`). -/
def innerPage (p : Tree.Page (Item Datum)) (n : Nat) : Option (List InnerRow) :=
  if p.leaf || p.deleted then none else innerCalls p n 0

/-! ### Leaf pages of the entry tree -/

/-- A row of the listing of a leaf page of the entry tree: the key, then TID and additional info of an item, or the posting tree. -/
structure EntryRow (V : Type) where
  key : AttKey V
  item : Option (Item Datum)
  tree : Option Nat

/-- The state between the calls for a leaf page of the entry tree: `curTupleNum`, `curTupleItemNum`, `needNewTuple`, `curItup`, the bytes from `itemPtr` on, its
offset in the tuple, and `curPitem.item.iptr`. -/
structure EntrySt (V : Type) where
  tupleNum : Nat
  itemNum : Nat
  need : Bool
  cur : Option (Ent V)
  rest : List Nat
  off : Nat
  iptr : Iptr

/-- get_entry_leaf_posting_list_result, `/repo/src/rum_debug_funcs.c:1203-1252`. -/
def listResult (ix : Ix V) (d : EntrySt V) : Option (EntryRow V × EntrySt V) :=
  match d.cur with
  | none => none
  | some e =>
    match e.post with
    | .tree _ => none
    | .list _ nposting =>
      match readItem (ix.ctx e.key.attnum).cfg d.off d.iptr d.rest with
      | none => none
      | some (it, rest) =>
        some (⟨e.key, some it, none⟩, { d with
          itemNum := d.itemNum + 1
          need := if d.itemNum + 1 > nposting then true else d.need
          rest := rest
          off := d.off + (d.rest.length - rest.length)
          iptr := it.iptr })

/-- One call of rum_page_items_info for a leaf page of the entry tree (`/repo/src/rum_debug_funcs.c:1614-1649`) with entry_leaf_page_get_next_result (`:1320-1352`),
prepare_new_entry_leaf_posting_list (`:1257-1276`) and get_entry_leaf_posting_tree_result (`:1281-1312`). `none`: read outside of the tuple; `some none`: no more rows. -/
def entryCall (ix : Ix V) (page : List (Ent V)) (d : EntrySt V) : Option (Option (EntryRow V × EntrySt V)) :=
  if d.tupleNum ≤ page.length then
    if d.need then
      match page[d.tupleNum - 1]? with
      | none => none
      | some e =>
        match e.post with
        | .tree t =>
          some (some (⟨e.key, none, some t⟩, { d with cur := some e, itemNum := 1, need := true, tupleNum := d.tupleNum + 1, iptr := ⟨0, 0⟩ }))
        | .list data _ =>
          (listResult ix ⟨d.tupleNum + 1, 1, false, some e, data, ix.keySize e.key, ⟨0, 0⟩⟩).map some
    else (listResult ix d).map some
  else some none

/-- The calls until there are no more rows (at most `n`). -/
def entryCalls (ix : Ix V) (page : List (Ent V)) : Nat → EntrySt V → Option (List (EntryRow V))
  | 0, _ => none
  | n + 1, d =>
    match entryCall ix page d with
    | none => none
    | some none => some []
    | some (some (r, d')) => (entryCalls ix page n d').map (fun l => r :: l)

/-- The listing of a leaf page of the entry tree; prepare_scan, `/repo/src/rum_debug_funcs.c:1028-1046`. -/
def entryPage (ix : Ix V) (p : Tree.Page (Ent V)) (n : Nat) : Option (List (EntryRow V)) :=
  if p.leaf && !p.deleted then entryCalls ix p.items n ⟨1, 0, true, none, [], 0, ⟨0, 0⟩⟩ else none

/-! ### The key of a posting tree -/

/-- find_page_in_posting_tree, `/repo/src/rum_debug_funcs.c:679-745`, in at most `n` steps; `none`: no end, or a read of a downlink that does not exist. -/
def findPage (s : Store (Item Datum)) (target : Nat) : Nat → Nat → Option Bool
  | 0, _ => none
  | n + 1, b =>
    let p := s.page b
    if p.leaf then some false
    else match p.downs.head? with
      | none => none
      | some d =>
        if target ∈ p.downs.map Prod.snd then some true
        else match p.right with
          | none => findPage s target n d.2
          | some r => findPage s target n r

/-- find_attnum_posting_tree_key (`/repo/src/rum_debug_funcs.c:890-924`) with find_posting_tree_root (`:756-817`) over the tuples of the entry tree in the order of its leaf
pages: the column of the key of block `b` of tree `t`; `none`: NULL (or no end). -/
def attnumIn (st : State V) (t b n : Nat) : List (Ent V) → Option Nat
  | [] => none
  | e :: es =>
    match e.post with
    | .list _ _ => attnumIn st t b n es
    | .tree t' =>
      if t' = t ∧ b = 0 then some e.key.attnum
      else match findPage (st.trees t') (if t' = t then b else (st.trees t').next) n 0 with
        | some true => some e.key.attnum
        | some false => attnumIn st t b n es
        | none => none

/-- The same from the root of the entry tree: find_min_entry_leaf_page (`/repo/src/rum_debug_funcs.c:826-874`) goes down the first downlinks, find_posting_tree_root then goes right. -/
def attnumOf (st : State V) (t b n : Nat) : Option Nat :=
  match leftmost st.entry st.entry.next rootBlk with
  | some l => attnumIn st t b n ((chain st.entry st.entry.next l).flatMap (·.items))
  | none => none

/-- rum_leaf_data_page_items_info for block `b` of tree `t`, `/repo/src/rum_debug_funcs.c:931-1048, 1547-1650`; `none`: NULL, or an error. -/
def leafDataInfo (ix : Ix V) (st : State V) (t b n : Nat) : Option (List DataRow) :=
  (attnumOf st t b n).bind (fun a => dataPage (ix.ctx a) ((st.trees t).page b) n)

/-! ### Word positions as text -/

/-- `"%d"` of a non-negative number. -/
def decimal (n : Nat) : List Char := Nat.toDigits 10 n

/-- pos_get_weight, `/repo/src/rum_debug_funcs.c:504-520`. -/
def weightLetter (w : Nat) : Char :=
  match Pos.wepWeight w with
  | 3 => 'A'
  | 2 => 'B'
  | 1 => 'C'
  | _ => 'D'

/-- What the `sprintf` calls of get_positions_to_text_datum write, `/repo/src/rum_debug_funcs.c:563-567`. -/
def posText (w : Nat) : List Char :=
  if weightLetter w = 'D' then decimal (Pos.wepPos w) ++ [',']
  else decimal (Pos.wepPos w) ++ [weightLetter w, ',']

/-- The loop of get_positions_to_text_datum, `/repo/src/rum_debug_funcs.c:556-583`: `text` is the string so far, `size` the size of the memory for it, `cur` is
`curMaxStrLenght`. `none`: a read past the end of the positions, or a write past the end of the memory (the terminating zero included). -/
def posLoop : Nat → Nat → List Nat → List Char → Nat → Nat → Option (List Char)
  | 0, _, _, text, _, _ => some text
  | k + 1, pos, bs, text, size, cur =>
    match Pos.decompressPos pos bs with
    | none => none
    | some (w, rest) =>
      let text' := text ++ posText w
      if text'.length + 1 > size then none
      else if cur - text'.length ≤ 16 then posLoop k w rest text' (cur + 1024) (cur + 1024)
      else posLoop k w rest text' size cur

/-- get_positions_to_text_datum, `/repo/src/rum_debug_funcs.c:531-594`. -/
def positionsText (bs : List Nat) : Option (List Char) :=
  let npos := Pos.countPos bs
  (posLoop npos 0 bs [] 1024 1023).map (fun t => if npos > 0 then t.dropLast else t)

end Rum.Debug
