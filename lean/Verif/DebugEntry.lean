import Verif.Debug
/-!
# Listing interior pages of the entry tree (`/repo/src/rum_debug_funcs.c`)
-/
namespace Rum.Debug
open Rum Rum.Codec Rum.Entry Rum.Tree Rum.Extract Rum.Index

variable {V : Type}

/-- A row of the listing of an interior page of the entry tree: the key, its column and its category (`none`: `+inf` and NULLs), and the child. -/
structure EntryInnerRow (V : Type) where
  key : Option (AttKey V)
  child : Nat

/-- The calls with `curTupleNum` = `cur`, `cur + 1`, … (at most `n`) for an interior page of the entry tree: rum_page_items_info (`/repo/src/rum_debug_funcs.c:1614-1649`) with
entry_internal_page_get_next_result (`:1160-1194`), RumIsEntryInternalHighKey (`:50-52`) and get_entry_index_tuple_values (`:617-640`). `none`: no end, or a read of
a tuple that does not exist. -/
def entryInnerCalls (p : Tree.Page (Ent V)) : Nat → Nat → Option (List (EntryInnerRow V))
  | 0, _ => none
  | n + 1, cur =>
    if cur ≤ p.downs.length then
      match p.downs[cur - 1]? with
      | none => none
      | some d =>
        (entryInnerCalls p n (cur + 1)).map (fun l => ⟨if p.right.isNone && cur == p.downs.length then none else some d.1.key, d.2⟩ :: l)
    else some []

/-- rum_internal_entry_page_items_info, from the first tuple on; `none` also for a page that is not an interior page of the entry tree
(`/repo/src/rum_debug_funcs.c:435-444, 1028-1046`). -/
def entryInnerPage (p : Tree.Page (Ent V)) (n : Nat) : Option (List (EntryInnerRow V)) :=
  if p.leaf || p.deleted then none else entryInnerCalls p n 1

end Rum.Debug
