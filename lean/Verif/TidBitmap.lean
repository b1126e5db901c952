/-!
# Model of the TID bitmap used by mixed-order scans

Models `src/tidbitmap/tidbitmap17.c` (the bundled copy of PostgreSQL's
`tidbitmap.c`, included by `src/rumtidbitmap.c:24-40`) and
`rum_tbm_contains_tid` (`src/rumtidbitmap.c:128-152`).

Simplifications, all stated once here:
* the page table is a list of entries looked up by block number; the real one is
  a `simplehash` table, preceded by a one-entry fast path (`TBM_ONE_PAGE`).  The
  hash order is never fixed by the model: every place that iterates over the
  table takes the visiting order as an argument.
* `tbm_lossify` is called when `nentries > maxentries`; the model takes the
  decision *and* the pages visited as arguments, hence covers every memory limit.
* `npages`, iteration (`tbm_begin_iterate` ...) and shared memory are not modelled.
-/

namespace Rum.TidBitmap

/-- PAGES_PER_CHUNK (`tidbitmap17.c:75`): `BLCKSZ / 32` = 256. -/
def pagesPerChunk : Nat := 256

/-- MAX_TUPLES_PER_PAGE (`tidbitmap17.c:57`) = MaxHeapTuplesPerPage = 291 for 8 kB. -/
def maxTuplesPerPage : Nat := 291

/-- WORDS_PER_CHUNK (`tidbitmap17.c:87`) = 256 / 64. -/
def wordsPerChunk : Nat := 4

/-- WORDS_PER_PAGE (`tidbitmap17.c:85`) = (291-1)/64 + 1. -/
def wordsPerPage : Nat := 5

/-- `bitmapword words[]`, 64-bit words; indexed by word number. -/
abbrev Words := Nat → BitVec 64

/-- WORDNUM (`tidbitmap17.c:80`). -/
def wordnum (x : Nat) : Nat := x / 64
/-- BITNUM (`tidbitmap17.c:81`). -/
def bitnum (x : Nat) : Nat := x % 64

/-- `words[wordnum] |= ((bitmapword) 1 << bitnum)`. -/
def setBit (w : Words) (wn bn : Nat) : Words :=
  fun k => if k = wn then w k ||| (1#64 <<< bn) else w k

/-- `(words[wordnum] & ((bitmapword) 1 << bitnum)) != 0`. -/
def testBit (w : Words) (wn bn : Nat) : Bool :=
  decide (w wn &&& (1#64 <<< bn) ≠ 0#64)

/-- PagetableEntry (`tidbitmap17.c:100-107`). -/
structure Entry where
  blk : Nat
  ischunk : Bool
  recheck : Bool
  words : Words

/-- MemSet(page, 0) + `page->blockno = ..` (`tidbitmap17.c:1237-1239`). -/
def newEntry (blk : Nat) (ischunk : Bool) : Entry :=
  { blk := blk, ischunk := ischunk, recheck := false, words := fun _ => 0#64 }

/-- TIDBitmap (`tidbitmap17.c:149-170`): the table and the two counters the code reads. -/
structure Tbm where
  tab : List Entry
  nentries : Nat
  nchunks : Nat

/-- tbm_create (`tidbitmap17.c:260-280`). -/
def create : Tbm := { tab := [], nentries := 0, nchunks := 0 }

/-- `pagetable_lookup`. -/
def lookup (tab : List Entry) (blk : Nat) : Option Entry :=
  tab.find? (fun e => e.blk == blk)

/-- Writing through the pointer `pagetable_lookup`/`pagetable_insert` returned. -/
def update (tab : List Entry) (blk : Nat) (f : Entry → Entry) : List Entry :=
  tab.map (fun e => if e.blk = blk then f e else e)

/-- `pagetable_delete`. -/
def delete (tab : List Entry) (blk : Nat) : List Entry :=
  tab.filter (fun e => !(e.blk == blk))

/-- tbm_find_pageentry (`tidbitmap17.c:1174-1199`). -/
def findPageentry (t : Tbm) (pageno : Nat) : Option Entry :=
  if t.nentries = 0 then none
  else match lookup t.tab pageno with
    | none => none
    | some page => if page.ischunk then none else some page

/-- tbm_get_pageentry (`tidbitmap17.c:1209-1249`): find or create; the entry is
then reachable by `lookup`. -/
def getPageentry (t : Tbm) (pageno : Nat) : Tbm :=
  match lookup t.tab pageno with
  | some _ => t
  | none => { t with tab := t.tab ++ [newEntry pageno false], nentries := t.nentries + 1 }

/-- tbm_page_is_lossy (`tidbitmap17.c:1254-1282`). -/
def pageIsLossy (t : Tbm) (pageno : Nat) : Bool :=
  if t.nchunks = 0 then false
  else
    let bitno := pageno % pagesPerChunk
    let chunk := pageno - bitno
    match lookup t.tab chunk with
    | some page => page.ischunk && testBit page.words (wordnum bitno) (bitnum bitno)
    | none => false

/-- tbm_mark_page_lossy (`tidbitmap17.c:1290-1353`). -/
def markPageLossy (t : Tbm) (pageno : Nat) : Tbm :=
  let bitno := pageno % pagesPerChunk
  let chunk := pageno - bitno
  let t1 : Tbm :=
    if bitno ≠ 0 ∧ (lookup t.tab pageno).isSome then
      { t with tab := delete t.tab pageno, nentries := t.nentries - 1 }
    else t
  match lookup t1.tab chunk with
  | none =>
    { tab := t1.tab ++ [{ newEntry chunk true with
        words := setBit (newEntry chunk true).words (wordnum bitno) (bitnum bitno) }]
      nentries := t1.nentries + 1, nchunks := t1.nchunks + 1 }
  | some page =>
    if page.ischunk then
      { t1 with tab := update t1.tab chunk (fun e =>
          { e with words := setBit e.words (wordnum bitno) (bitnum bitno) }) }
    else
      { t1 with
        tab := update t1.tab chunk (fun _ =>
          { newEntry chunk true with
            words := setBit (setBit (newEntry chunk true).words 0 0)
              (wordnum bitno) (bitnum bitno) })
        nchunks := t1.nchunks + 1 }

/-- tbm_lossify (`tidbitmap17.c:1358-1420`), for the pages `visited` by the hash
iteration before it stops. -/
def lossify (t : Tbm) : List Nat → Tbm
  | [] => t
  | p :: rest =>
    match lookup t.tab p with
    | none => lossify t rest
    | some page =>
      if page.ischunk then lossify t rest
      else if page.blk % pagesPerChunk = 0 then lossify t rest
      else lossify (markPageLossy t page.blk) rest

/-- `if (tbm->nentries > tbm->maxentries) tbm_lossify(tbm)`: `none` = within the limit. -/
def maybeLossify (t : Tbm) : Option (List Nat) → Tbm
  | none => t
  | some visited => lossify t visited

/-- `blk == currblk` (`tidbitmap17.c:401`). -/
def cacheHit (cache : Option (Nat × Bool)) (blk : Nat) : Bool :=
  match cache with
  | some (b, _) => b == blk
  | none => false

/-- `page == NULL` after the look-up (`tidbitmap17.c:401-411`). -/
def pageNull (t : Tbm) (cache : Option (Nat × Bool)) (blk : Nat) : Bool :=
  if cacheHit cache blk then
    (match cache with
     | some (_, n) => n
     | none => false)
  else pageIsLossy t blk

/-- Loop of tbm_add_tuples (`tidbitmap17.c:382-428`).  `cache` is the pair
(`currblk`, `page == NULL`).  Each row comes with the lossify decision taken after it.
`none` is `elog(ERROR)`. -/
def addTuplesLoop (t : Tbm) (cache : Option (Nat × Bool)) (recheck : Bool) :
    List ((Nat × Nat) × Option (List Nat)) → Option Tbm
  | [] => some t
  | ((blk, off), dec) :: rest =>
    if off < 1 ∨ off > maxTuplesPerPage then none
    else
      let hit := cacheHit cache blk
      let isNull := pageNull t cache blk
      let t1 := if hit || isNull then t else getPageentry t blk
      if isNull then addTuplesLoop t1 (some (blk, isNull)) recheck rest
      else
        let t2 : Tbm := { t1 with tab := update t1.tab blk (fun page =>
            { page with
              words := if page.ischunk then setBit page.words 0 0
                       else setBit page.words (wordnum (off - 1)) (bitnum (off - 1))
              recheck := page.recheck || recheck }) }
        match dec with
        | none => addTuplesLoop t2 (some (blk, isNull)) recheck rest
        | some visited => addTuplesLoop (lossify t2 visited) none recheck rest

/-- tbm_add_tuples (`tidbitmap17.c:373-429`). -/
def addTuples (t : Tbm) (rows : List ((Nat × Nat) × Option (List Nat))) (recheck : Bool) :
    Option Tbm :=
  addTuplesLoop t none recheck rows

/-- tbm_add_page (`tidbitmap17.c:438-446`). -/
def addPage (t : Tbm) (pageno : Nat) (dec : Option (List Nat)) : Tbm :=
  maybeLossify (markPageLossy t pageno) dec

/-- The pages of a chunk whose bit is set, in the order the double loop of
tbm_union_page visits them (`tidbitmap17.c:488-506`). -/
def chunkPages (e : Entry) : List Nat :=
  (List.range wordsPerChunk).flatMap (fun wn =>
    ((List.range 64).filter (fun bn => testBit e.words wn bn)).map
      (fun bn => e.blk + wn * 64 + bn))

/-- tbm_union_page (`tidbitmap17.c:480-534`). -/
def unionPage (a : Tbm) (bpage : Entry) (dec : Option (List Nat)) : Tbm :=
  if bpage.ischunk then
    maybeLossify ((chunkPages bpage).foldl markPageLossy a) dec
  else if pageIsLossy a bpage.blk then a
  else
    let a1 := getPageentry a bpage.blk
    maybeLossify { a1 with tab := update a1.tab bpage.blk (fun apage =>
      if apage.ischunk then { apage with words := setBit apage.words 0 0 }
      else { apage with
             words := fun k => if k < wordsPerPage then apage.words k ||| bpage.words k
                               else apage.words k
             recheck := apage.recheck || bpage.recheck }) } dec

/-- tbm_union (`tidbitmap17.c:453-477`); `order` is the hash order of `b`'s entries. -/
def union (a : Tbm) (b : Tbm) (order : List (Entry × Option (List Nat))) : Tbm :=
  if b.nentries = 0 then a
  else order.foldl (fun a p => unionPage a p.1 p.2) a

/-- The word loop for a lossy `a` page in tbm_intersect_page (`tidbitmap17.c:588-632`):
clear the bit of every page `b` does not have at all. -/
def clearAbsent (b : Tbm) (e : Entry) : Words :=
  fun wn => if wn < wordsPerChunk then
      (List.range 64).foldl (fun neww bn =>
        if testBit e.words wn bn &&
            (!pageIsLossy b (e.blk + wn * 64 + bn) &&
              (findPageentry b (e.blk + wn * 64 + bn)).isNone)
        then neww &&& ~~~ (1#64 <<< bn) else neww) (e.words wn)
    else e.words wn

/-- tbm_intersect_page (`tidbitmap17.c:581-670`); `none` = the entry is to be deleted. -/
def intersectPage (b : Tbm) (apage : Entry) : Option Entry :=
  if apage.ischunk then
    let w := clearAbsent b apage
    if (List.range wordsPerChunk).all (fun k => w k == 0#64) then none
    else some { apage with words := w }
  else if pageIsLossy b apage.blk then some { apage with recheck := true }
  else match findPageentry b apage.blk with
    | none => none
    | some bpage =>
      let w : Words := fun k => if k < wordsPerPage then apage.words k &&& bpage.words k
                                else apage.words k
      if (List.range wordsPerPage).all (fun k => w k == 0#64) then none
      else some { apage with words := w, recheck := apage.recheck || bpage.recheck }

/-- tbm_intersect (`tidbitmap17.c:541-578`).  Entries are processed independently of
each other, so the hash order is irrelevant. -/
def intersect (a b : Tbm) : Tbm :=
  if a.nentries = 0 then a
  else
    let tab := a.tab.filterMap (intersectPage b)
    { tab := tab
      nentries := a.nentries - (a.tab.length - tab.length)
      nchunks := a.nchunks - (a.tab.countP (·.ischunk) - tab.countP (·.ischunk)) }

/-- tbm_is_empty (`tidbitmap17.c:675-679`). -/
def isEmpty (t : Tbm) : Bool := t.nentries == 0

/-- rum_tbm_contains_tid (`rumtidbitmap.c:128-152`): (answer, `*recheck`). -/
def containsTid (t : Tbm) (blk off : Nat) : Bool × Bool :=
  if pageIsLossy t blk then (true, true)
  else match findPageentry t blk with
    | some page => (testBit page.words (wordnum (off - 1)) (bitnum (off - 1)), false)
    | none => (false, false)

end Rum.TidBitmap
