import Verif.CodecLemmas
/-!
# Additional information left on the page (`/repo/src/rum.h:969-975`, `1040-1052`, `/repo/src/rumget.c:240-298`)

scanPostingTree reads the leaf pages of a posting tree with copyAddInfo = false: of a type passed by reference the item keeps a pointer into the buffer of
the page. The items are sorted and given to the operator class after the page was unlocked and unpinned.
-/
namespace Rum.Codec
open Rum

/-- The Datum `item->addInfo` without a copy: the value of a type passed by value, or a pointer, as offset into the page. -/
inductive Loc where
  | val (d : Datum)
  | at (pos : Nat)
deriving DecidableEq, Repr

/-- att_align_pointer before fetch_att, `/repo/src/rum.h:1044-1048`. -/
def valuePos (a : Attr) (off : Nat) (bs : List Nat) : Nat :=
  if a.len = -1 ∧ bs.headD 0 ≠ 0 then off else alignUp a.align off

/-- rumDataPageLeafRead with copyAddInfo = false, `/repo/src/rum.h:977-1056`; `bs` are the bytes of the page from `off` on. -/
def readRef (c : Cfg) (off : Nat) (prev : Iptr) (bs : List Nat) : Option ((Iptr × Option Loc) × List Nat) :=
  match readIptr c.alt prev bs with
  | none => none
  | some (p, isNull, bs1) =>
    if isNull then some ((p, none), bs1)
    else match c.attr with
      | none => none
      | some a =>
        match readDatum a (off + (bs.length - bs1.length)) bs1 with
        | none => none
        | some (d, bs2) => some ((p, some (if a.byval then .val d else .at (valuePos a (off + (bs.length - bs1.length)) bs1))), bs2)

/-- The loop over the items of a page in scanPostingTree, `/repo/src/rumget.c:269-281`. -/
def readRefs (c : Cfg) (off : Nat) (prev : Iptr) : Nat → List Nat → Option (List (Iptr × Option Loc))
  | 0, _ => some []
  | n + 1, bs =>
    match readRef c off prev bs with
    | none => none
    | some (it, bs1) => (readRefs c (off + (bs.length - bs1.length)) it.1 n bs1).map (it :: ·)

/-- What the operator class sees when it follows the pointer, with `page` the content of the buffer at that time. -/
def follow (c : Cfg) (page : List Nat) : Option Loc → Option (Option Datum)
  | none => some none
  | some (.val d) => some (some d)
  | some (.at pos) =>
    match c.attr with
    | none => none
    | some a => (readDatum a pos (page.drop pos)).map (fun r => some r.1)

end Rum.Codec
