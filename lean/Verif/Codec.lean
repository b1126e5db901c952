import Verif.Basic
/-
Byte-level encoding of posting lists: item pointers, additional info, lists.
Bytes are natural numbers; `bytes_lt` lemmas show that every byte written is < 256.
`none` is "the code raises an error or reads outside the buffer".
-/
namespace Rum.Codec

/-! ### Item pointers -/

/-- The loop that writes the block-number increment, 7 bits per byte, high bit =
"more follows".  /repo/src/rumdatapage.c:193-201. The stored `char` keeps the low
8 bits of `(blockNumberIncr & ~HIGHBIT) | ...`, i.e. `n &&& 0x7f` and the flag. -/
def writeBlk (n : Nat) : List Nat :=
  ((n &&& 0x7f) ||| (if n ≥ 0x80 then 0x80 else 0)) ::
    (if n < 0x80 then [] else writeBlk (n >>> 7))
termination_by n
decreasing_by
  simp only [Nat.shiftRight_eq_div_pow]; omega

/-- The loop that writes the offset number; the last byte carries 6 bits and the
"additional info is NULL" flag in bit 0x40.  /repo/src/rumdatapage.c:203-217. -/
def writeOff (o : Nat) (isNull : Bool) : List Nat :=
  if o ≥ 0x40 then ((o &&& 0x7f) ||| 0x80) :: writeOff (o >>> 7) isNull
  else [o ||| (if isNull then 0x40 else 0)]
termination_by o
decreasing_by
  simp only [Nat.shiftRight_eq_div_pow]; omega

/-- The `do ... while (v & HIGHBIT)` loop reading the block increment into a
`uint32`.  /repo/src/rum.h:921-930. -/
def readBlk (i acc : Nat) : List Nat → Option (Nat × List Nat)
  | [] => none
  | v :: rest =>
    let acc' := (acc ||| ((v &&& 0x7f) <<< i)) % 2 ^ 32
    if v &&& 0x80 ≠ 0 then readBlk (i + 7) acc' rest else some (acc', rest)

/-- The `while (true)` loop reading the offset into a `uint16` and the NULL flag.
/repo/src/rum.h:940-960. -/
def readOff (i acc : Nat) : List Nat → Option (Nat × Bool × List Nat)
  | [] => none
  | v :: rest =>
    if v &&& 0x80 ≠ 0 then
      readOff (i + 7) ((acc ||| ((v &&& 0x7f) <<< i)) % 2 ^ 16) rest
    else
      some ((acc ||| ((v &&& 0x3f) <<< i)) % 2 ^ 16, v &&& 0x40 ≠ 0, rest)

/-- `k`-byte little-endian representation (`memcpy` of an integer on the modelled
little-endian platform). -/
def leBytes : Nat → Nat → List Nat
  | 0, _ => []
  | k + 1, n => (n % 256) :: leBytes k (n / 256)

/-- Inverse of `leBytes`. -/
def leNat : List Nat → Nat
  | [] => 0
  | b :: bs => b + 256 * leNat bs

/-- `memcpy` of an `ItemPointerData`: `bi_hi`, `bi_lo`, `ip_posid`, two bytes each
(layout of PostgreSQL's `ItemPointerData`). -/
def rawIptr (p : Iptr) : List Nat :=
  leBytes 2 (p.blk / 2 ^ 16) ++ leBytes 2 (p.blk % 2 ^ 16) ++ leBytes 2 p.off

/-- rumDataPageLeafWriteItemPointer, /repo/src/rumdatapage.c:168-222.
`alt` is `rumstate->useAlternativeOrder`; `uint32` subtraction wraps. -/
def writeIptr (alt : Bool) (p prev : Iptr) (isNull : Bool) : List Nat :=
  if alt then
    rawIptr { p with off := if isNull then p.off ||| 0x8000 else p.off }
  else
    writeBlk ((p.blk + 2 ^ 32 - prev.blk) % 2 ^ 32) ++ writeOff p.off isNull

/-- Reading an item pointer: rumDataPageLeafReadItemPointer /repo/src/rum.h:913-966, or the
`useAlternativeOrder` branch of rumDataPageLeafRead /repo/src/rum.h:983-999. -/
def readIptr (alt : Bool) (prev : Iptr) (bs : List Nat) : Option (Iptr × Bool × List Nat) :=
  if alt then
    if bs.length < 6 then none else
    let hi := leNat (bs.take 2)
    let lo := leNat ((bs.drop 2).take 2)
    let po := leNat ((bs.drop 4).take 2)
    if po &&& 0x8000 ≠ 0 then
      some (⟨lo + hi * 2 ^ 16, po &&& 0x7fff⟩, true, bs.drop 6)
    else
      some (⟨lo + hi * 2 ^ 16, po⟩, false, bs.drop 6)
  else
    match readBlk 0 0 bs with
    | none => none
    | some (incr, bs1) =>
      match readOff 0 0 bs1 with
      | none => none
      | some (o, nul, bs2) => some (⟨(incr + prev.blk) % 2 ^ 32, o⟩, nul, bs2)

/-- Number of bytes of the block part, loop at /repo/src/rumdatapage.c:261-267. -/
def sizeBlk (n : Nat) : Nat :=
  if n < 0x80 then 1 else 1 + sizeBlk (n >>> 7)
termination_by n
decreasing_by
  simp only [Nat.shiftRight_eq_div_pow]; omega

/-- Number of bytes of the offset part, loop at /repo/src/rumdatapage.c:269-275. -/
def sizeOff (o : Nat) : Nat :=
  if o < 0x40 then 1 else 1 + sizeOff (o >>> 7)
termination_by o
decreasing_by
  simp only [Nat.shiftRight_eq_div_pow]; omega

/-- rumDataPageLeafGetItemPointerSize, /repo/src/rumdatapage.c:248-278, and the
fixed six bytes of the alternative order, :292-293. -/
def sizeIptr (alt : Bool) (p prev : Iptr) : Nat :=
  if alt then 6
  else sizeBlk ((p.blk + 2 ^ 32 - prev.blk) % 2 ^ 32) + sizeOff p.off

/-! ### Additional info -/

/-- The attribute properties used when storing additional info (`attbyval`,
`attlen`, `attalign` in bytes, `attstorage = 'p'`); /repo/src/rumdatapage.c:235-243. -/
structure Attr where
  byval : Bool
  len : Int
  align : Nat
  plain : Bool
deriving DecidableEq, Repr

/-- Header forms of a PostgreSQL varlena value. -/
inductive VHdr where
  | short      -- 1-byte header
  | full       -- 4-byte header, uncompressed
  | compressed -- 4-byte header, compressed
  | external   -- toast pointer
deriving DecidableEq, Repr

/-- A `Datum` of additional info. By-value data is its bit pattern; varlena data
is header form and contents. -/
inductive Datum where
  | byval (n : Nat)
  | varlena (h : VHdr) (payload : List Nat)
  | cstring (chars : List Nat)
  | fixedRef (bytes : List Nat)
deriving DecidableEq, Repr

/-- `att_align_nominal`: round `off` up to a multiple of `a`. -/
def alignUp (a off : Nat) : Nat := (off + a - 1) / a * a

/-- `VARATT_CAN_MAKE_SHORT`: uncompressed 4-byte header and short size ≤ 0x7F. -/
def canMakeShort : VHdr → List Nat → Bool
  | .full, p => decide (p.length + 1 ≤ 0x7f)
  | _, _ => false

/-- `TYPE_IS_PACKABLE`, /repo/src/rumdatapage.c:22-23. -/
def packable (a : Attr) : Bool := a.len == -1 && !a.plain

/-- First byte(s) of a 1-byte-header varlena: `(len << 1) | 1`. -/
def shortHdr (n : Nat) : Nat := ((n + 1) <<< 1) ||| 1

/-- 4-byte header as an integer: `len << 2`, bit 1 set when compressed. -/
def longHdr (compressed : Bool) (n : Nat) : Nat :=
  ((n + 4) <<< 2) ||| (if compressed then 2 else 0)

/-- rumComputeDatumSize, /repo/src/rumdatapage.c:29-56. Returns the new running
offset. (A toast pointer is rejected by the writer; its size here is irrelevant.) -/
def computeSize (a : Attr) (off : Nat) : Datum → Nat
  | .byval _ => off + a.len.toNat
  | .varlena h p =>
    if packable a && canMakeShort h p then off + (p.length + 1)
    else match h with
      | .short => off + (p.length + 1)
      | .full => alignUp a.align off + (p.length + 4)
      | .compressed => alignUp a.align off + (p.length + 4)
      | .external => off
  | .cstring s => alignUp a.align off + (s.length + 1)
  | .fixedRef _ => alignUp a.align off + a.len.toNat

/-- Zero padding up to the nominal alignment, /repo/src/rumdatapage.c:155-156. -/
def pad (a : Attr) (off : Nat) : List Nat := List.replicate (alignUp a.align off - off) 0

/-- rumDatumWrite, /repo/src/rumdatapage.c:63-161: the bytes written from running
offset `off` on, `none` for `elog(ERROR)` (unsupported by-value length, toast pointer)
or when the datum does not have the attribute's type. -/
def writeDatum (a : Attr) (off : Nat) (d : Datum) : Option (List Nat) :=
  if a.byval then
    match d with
    | .byval n =>
      if a.len = 1 ∨ a.len = 2 ∨ a.len = 4 ∨ a.len = 8 then some (leBytes a.len.toNat n) else none
    | _ => none
  else if a.len = -1 then
    match d with
    | .varlena .external _ => none
    | .varlena .short p => some (shortHdr p.length :: p)
    | .varlena h p =>
      if packable a && canMakeShort h p then some (shortHdr p.length :: p)
      else some (pad a off ++ leBytes 4 (longHdr (h == .compressed) p.length) ++ p)
    | _ => none
  else if a.len = -2 then
    match d with
    | .cstring s => some (s ++ [0])
    | _ => none
  else
    match d with
    | .fixedRef bs => some (pad a off ++ bs)
    | _ => none

/-- `VARSIZE_ANY` and header decoding of the varlena at the front of the buffer
(PostgreSQL postgres.h / varatt.h macros). -/
def readVarlena : List Nat → Option (Datum × List Nat)
  | [] => none
  | b :: bs =>
    if b &&& 1 = 1 then
      if b = 1 then none   -- 1B_E: toast pointer, never stored
      else
        let n := (b >>> 1) &&& 0x7f
        if bs.length < n - 1 then none
        else some (.varlena .short (bs.take (n - 1)), bs.drop (n - 1))
    else if bs.length < 3 then none
    else
      let w := leNat (b :: bs.take 3)
      let n := (w >>> 2) &&& 0x3fffffff
      if bs.length < n - 1 then none
      else some (.varlena (if w &&& 2 = 2 then .compressed else .full) ((bs.drop 3).take (n - 4)),
                 bs.drop (n - 1))

/-- Reading the additional info in rumDataPageLeafRead, /repo/src/rum.h:1005-1053.
`att_align_pointer` skips padding unless the value is a varlena and the byte is non-zero. -/
def readDatum (a : Attr) (off : Nat) (bs : List Nat) : Option (Datum × List Nat) :=
  if a.byval then
    if (a.len = 1 ∨ a.len = 2 ∨ a.len = 4 ∨ a.len = 8) ∧ a.len.toNat ≤ bs.length then
      some (.byval (leNat (bs.take a.len.toNat)), bs.drop a.len.toNat)
    else none
  else if a.len = -1 then
    match bs with
    | [] => none
    | b :: _ =>
      if b ≠ 0 then readVarlena bs
      else readVarlena (bs.drop (alignUp a.align off - off))
  else if a.len = -2 then
    let bs' := bs.drop (alignUp a.align off - off)
    let s := bs'.takeWhile (· != 0)
    if s.length < bs'.length then some (.cstring s, bs'.drop (s.length + 1)) else none
  else
    let bs' := bs.drop (alignUp a.align off - off)
    if bs'.length < a.len.toNat then none
    else some (.fixedRef (bs'.take a.len.toNat), bs'.drop a.len.toNat)

/-! ### Items and lists -/

/-- What the codec needs of `RumState` for one column: the order mode and
`addAttrs[attnum - 1]` (`none` = NULL pointer). -/
structure Cfg where
  alt : Bool
  attr : Option Attr

/-- rumPlaceToDataPageLeaf, /repo/src/rumdatapage.c:227-246. -/
def placeItem (c : Cfg) (off : Nat) (it : Item Datum) (prev : Iptr) : Option (List Nat) :=
  let h := writeIptr c.alt it.iptr prev it.info.isNone
  match it.info with
  | none => some h
  | some d =>
    match c.attr with
    | none => none
    | some a => (writeDatum a (off + h.length) d).map (h ++ ·)

/-- rumDataPageLeafRead, /repo/src/rum.h:977-1056. -/
def readItem (c : Cfg) (off : Nat) (prev : Iptr) (bs : List Nat) :
    Option (Item Datum × List Nat) :=
  match readIptr c.alt prev bs with
  | none => none
  | some (p, isNull, bs1) =>
    if isNull then some (⟨p, none⟩, bs1)
    else match c.attr with
      | none => none
      | some a =>
        match readDatum a (off + (bs.length - bs1.length)) bs1 with
        | none => none
        | some (d, bs2) => some (⟨p, some d⟩, bs2)

/-- rumCheckPlaceToDataPageLeaf, /repo/src/rumdatapage.c:284-305. -/
def checkPlace (c : Cfg) (it : Item Datum) (prev : Iptr) (size : Nat) : Nat :=
  let s := size + sizeIptr c.alt it.iptr prev
  match it.info, c.attr with
  | some d, some a => computeSize a s d
  | _, _ => s

/-- The placing loops: e.g. /repo/src/ruminsert.c:219-231 (index tuple) and
/repo/src/ruminsert.c:79-88 (posting-tree page): items one after another, each
relative to its predecessor. -/
def placeList (c : Cfg) (off : Nat) (prev : Iptr) : List (Item Datum) → Option (List Nat)
  | [] => some []
  | it :: its =>
    match placeItem c off it prev with
    | none => none
    | some b =>
      match placeList c (off + b.length) it.iptr its with
      | none => none
      | some bs => some (b ++ bs)

/-- The reading loop over a posting list of `n` items, e.g. rumReadTuple
/repo/src/rumentrypage.c:22-50 and the page loops of /repo/src/rumdatapage.c:573-610. -/
def readList (c : Cfg) (off : Nat) (prev : Iptr) : Nat → List Nat → Option (List (Item Datum) × List Nat)
  | 0, bs => some ([], bs)
  | n + 1, bs =>
    match readItem c off prev bs with
    | none => none
    | some (it, bs1) =>
      match readList c (off + (bs.length - bs1.length)) it.iptr n bs1 with
      | none => none
      | some (its, bs2) => some (it :: its, bs2)

/-- The size loop, /repo/src/ruminsert.c:172-183. -/
def checkList (c : Cfg) (prev : Iptr) (size : Nat) : List (Item Datum) → Nat
  | [] => size
  | it :: its => checkList c it.iptr (checkPlace c it prev size) its

/-! ### Vocabulary of the specification -/

/-- The datum is a value of the attribute's type, of a size PostgreSQL can represent
(short varlena at most 127 bytes, long varlena below 1 GB, C strings without NUL;
`Assert(typalign == 'c')` for C strings /repo/src/rumdatapage.c:140). -/
def Datum.Typed (a : Attr) : Datum → Prop
  | .byval n => a.byval = true ∧ (a.len = 1 ∨ a.len = 2 ∨ a.len = 4 ∨ a.len = 8) ∧ n < 256 ^ a.len.toNat
  | .varlena h p => a.byval = false ∧ a.len = -1 ∧ 0 < a.align ∧
      match h with
      | .short => p.length + 1 ≤ 0x7f
      | .full => p.length + 4 < 2 ^ 30
      | .compressed => p.length + 4 < 2 ^ 30
      | .external => False
  | .cstring s => a.byval = false ∧ a.len = -2 ∧ a.align = 1 ∧ ∀ c ∈ s, c ≠ 0
  | .fixedRef bs => a.byval = false ∧ 0 < a.len ∧ 0 < a.align ∧ (bs.length : Int) = a.len

/-- The form a datum has once stored: a packable varlena gets a short header.
/repo/src/rumdatapage.c:125-132. -/
def Datum.stored (a : Attr) : Datum → Datum
  | .varlena h p => if packable a && canMakeShort h p then .varlena .short p else .varlena h p
  | d => d

/-- Two datums denote the same SQL value: identical, except that an uncompressed
varlena may have either header form. -/
def Datum.SameValue : Datum → Datum → Prop
  | .varlena .short p, .varlena .full q => p = q
  | .varlena .full p, .varlena .short q => p = q
  | d, e => d = e

/-- Stored form of an item. -/
def _root_.Rum.Item.stored (c : Cfg) (it : Item Datum) : Item Datum :=
  { it with info := it.info.map (fun d => match c.attr with | some a => d.stored a | none => d) }

/-- An item that can be stored: its pointer fits the field widths (below 0x8000 in the
alternative order, whose top bit is the NULL flag, /repo/src/rum.h:337) and its additional info has the column's type. -/
def ItemOK (c : Cfg) (it : Item Datum) : Prop :=
  it.iptr.Fits ∧ (c.alt = true → it.iptr.off < 0x8000) ∧
  ∀ d, it.info = some d → ∃ a, c.attr = some a ∧ d.Typed a

end Rum.Codec
