# Design: a Lean 4 model of postgrespro/rum

The code is not run here. Everything below is a model written by reading `/repo/src` as text, one Lean
definition per C function (or per loop), with the file and lines cited on each definition.

## Trusted base

* Lean 4.33.0's kernel; the axioms `propext`, `Classical.choice`, `Quot.sound` (no others; no
  `native_decide`, no `bv_decide`, no axioms of our own). Every theorem named in `MANIFEST.json` depends on
  a subset of these three.
* The reading of the C code: the model is tied to the code only by the citations on its definitions.
* PostgreSQL facilities the code calls are parameters or assumptions: buffer manager and page locks (one page
  visit under one lock is one atomic step), generic WAL (a record is atomic and applied in order),
  `PageAddItem`'s free-space rule, type comparison functions (assumed to be total orders where stated),
  memory contexts and `palloc` (never fails), `qsort` (some sorting permutation, arbitrary on ties),
  tuplesort where a property names it only (modelled by RUM's comparators and "some sorted permutation";
  that RUM's copies of it do this is C76 and C77), heap visibility, the planner.
* Floating point: scores and distances are computed in an arbitrary structure of operations (no laws assumed
  except where a theorem names them); so equalities of scores mean "the same operations in the same order".

## Conventions

* Model files: `lean/Verif/<Area>.lean`; helper lemmas next to them or in `<Area>Lemmas.lean`; the property
  theorems in `lean/Verif/Props/*.lean`, so that the statement of every property can be read on its own.
* Undefined behaviour (out-of-bounds reads such as `list[-1]`) is a distinct outcome, never a default value.
* When the code violates a property, the negation is proved with a concrete witness (theorem names ending in
  `_violated`) and the strongest true version found is proved with the suffix `_partial` (older theorems of
  partial claims that prove one conjunct of the property in full keep their plain name).
* Next to each theorem a concrete instance (`example` or a `_witness` theorem) meets its hypotheses.
* Widths: `uint16`/`uint32`/`int64` wrap where the code can make them wrap (item pointers, word positions,
  weight sums, timestamps, tid bitmap words); page sizes are parameters (`Lim`) or 8 kB constants as cited.

## Which code is modelled

| file | modelled | not modelled |
|------|----------|--------------|
| `rum.h` | item pointer and datum coding, leaf item reading, page size macros, null categories, scan structures | `PostgreSQL` version shims |
| `rumutil.c` | `initRumState` (options and layout), `rumExtractEntries`, key comparison, entry comparison | GUC definitions, `rumproperty`, statistics |
| `rumdatapage.c` | all functions that read or change posting-tree pages | page-image bookkeeping of generic WAL |
| `rumbtree.c` | descent, step right, find parents, insert with splits, as log-record steps | buffer refcounts |
| `rumentrypage.c` | all functions, tuples abstracted to key, size and payload; the bytes of the tuples and their header separately (`TupleBytes`), joined by `C73_model` | how PostgreSQL stores the key itself |
| `ruminsert.c` | posting tree creation, tuple forming, insertion of an entry, of a row, build | maintenance_work_mem accounting (flushes happen at arbitrary moments) |
| `rumbulk.c` | accumulator with sort and duplicates handling | red-black tree (a finite map ordered by key) |
| `rumvacuum.c` | posting lists, posting-tree leaves, page deletion, scan to delete, entry pages, bulk delete; VACUUM of a posting tree interleaved record by record with scans and insertions (pins, cleanup locks of root and deleted pages) | statistics, free space map; a VACUUM cancelled or crashed between two of its records and then resumed by others; reuse of deleted pages |
| `rumscan.c` | scan key and entry construction, sharing, NULLs, search modes, direction and mark | memory contexts |
| `rumget.c` | regular, fast and full scans, range searches among running insertions and VACUUM (C74), entry streams over lists/pages/sort states, two-pass natural order, ordering values | `work_mem` of bitmaps other than lossiness |
| `rumsort.c`, `tuplesort*.c`, `qsort_tuple.c` | RUM comparators, the contract of a sort, the sort in memory (C76) and on tapes (C77; polyphase merge of versions 10 to 14, balanced merge of version 15) | memory accounting, tape files, the encoding of tuples on tape, replacement selection (version 9.6), backward reading; PostgreSQL's own `qsort`/`sort_template.h` (rumbulk.c, versions 14 and 15) |
| `rumtidbitmap.c` | whole file | |
| `rum_ts_utils.c` | consistent, pre-consistent, positions, extraction (plain and hashed), ranking from index and document, normalization methods | taking apart the composite value of rum_distance_query |
| `rumtsquery.c` | wrapping, extraction, consistency of inverted search | |
| `rum_arr_utils.c` | extraction, consistent, similarity, distance | type cache |
| `btree_rum.c` | extraction, compare-prefix, distances, leftmost values | text collations (abstract orders) |
| `rumvalidate.c` | decision logic over an abstract catalog | catalog access |
| `rum_debug_funcs.c` | the calls of rum_page_items_info on leaf and interior pages of posting trees and on leaf and interior pages of the entry tree, the search for the key of a posting tree, text of word positions | metapage and opaque area, output functions of the types |

## Plan per property

| id | model modules | method |
|----|-------|--------|
| C01, C02 | `Codec` | induction on varbyte groups and on the list, round trip with arbitrary continuation, size = bytes |
| C03, C04 | `Order`, `Sorted` | case analysis over an abstract value order |
| C05 | `Merge` | functional induction |
| C06 | `LeafPage` | loop invariant over the page pass |
| C07, C08 | `DataPage`, `SplitLemmas` | functional induction over the merge/split loops with a byte budget; negation for the right bound and for padded items |
| C09, C10 | `Tree`, `TreeInv`, `TreeSteps`, `TreeInsert`, `TreeKeeps`, `TreeRecords`, `TreeLeaf`, `TreeRun`, `PostingTree` | page store with right links and downlinks; invariant at every log record, refinement to a sorted set |
| C11 | `PostingTree` | negation by witness (orphan page, `Lost path`) + what survives |
| C12, C14 | `VacuumList`, `TreeVacuum`, `TreeDelete`, `TreeVacLemmas` | list lemma, tree theorem by downlink walk; negation for orphan pages |
| C13 | `VacuumList` | size monotonicity under removal |
| C15 | `EntryTree*`, `RowInsert` | refinement to `key -> list of items` over all histories, at every record |
| C16, C17 | `EntryPage` | arithmetic over the balancing loop; binary search invariant |
| C18 | `Extract` | sort + dedupe lemma |
| C19 | `Bulk`, `BulkLemmas` | refinement of accumulator and flushes to insertion row by row |
| C20, C43 | `Scan`, `ScanSpec`, `ScanLemmas`, `ScanRun` | stream invariants, completeness/soundness by induction on remaining items |
| C21 | `FastScan`, `FastLemmas` | one filter key: proof; several: negation by witness |
| C22, C23 | `ScanPage`, `PostingScan` | loop invariants, induction over pages; UB witnesses |
| C24 | `Natural` | two-pass scan, distance monotonicity |
| C25, C26 | `TsQuery`, `SortUniq` | induction on query trees against a declarative semantics |
| C27, C28 | `Positions` | induction |
| C29, C30 | `InvTsquery*` | induction; negation by witness |
| C31, C32 | `ArrayOps` | list/set lemmas |
| C33-C35 | `BtreeOps`, `EntryScan` | order lemmas, finite-width integers |
| C36 | `Sort` | total-preorder lemmas |
| C37 | `Options` | decision logic |
| C38 | `ScanKeys` | decision logic / dedup lemma |
| C39 | `TidBitmap` | bit arithmetic |
| C40, C44, C45 | `Conc`, `ConcInv`, `ConcStep`, `ConcSys`, `ConcRead`, `ConcFree` | any number of backends as state machines of page visits over a shared store; invariant over all interleavings |
| C46 | `BackScan` | same machine with a backward reader; negation by schedule, positive part without concurrent splits |
| C41 | `Rank` | both constructions of the document representation, cover search; equality of the scores, negations by witness |
| C42 | `Validate` | decision logic |
| C47 | `FullScan` | full index scan over posting lists |
| C48 | `OrderVals` | values used for ORDER BY vs the row's values; with the sorts of C76 and C77 in `Props/OrderSort` |
| C49 | `IndexVacuum*` | whole-index histories of build, insertions and VACUUMs |
| C50 | `Query`, `QueryLemmas` | composition of C15/C49 and C20: table history to query result |
| C51, C52 | `FullText` | composition of C50, C25, C27 |
| C53 | `Collect`, `CollectLemmas` | walk over the leaf pages of the entry tree, sort, joining of the items of a row; composition with C49 and C20 |
| C54, C55 | `Scalar` | composition of C53 with the scalar operator classes; C55 is the scope without exceptions |
| C56 | `ArraySearch`, `Props/ArraySearch` | composition of C53 with C31: extraction, hidden entries of search modes, void queries; elements only up to equality (`exists_key` reduces to classes of equal elements); `C56_arrays_partial` adds VACUUM |
| C57 | `TextSearch`, `Props/SearchAnswer`, `Props/TextSearch`, `Props/TextTable` | composition of C53 with C25, C27, C28: entries of words and prefixes, the join of positions over the keys of a prefix, the hidden whole-index entry of queries that need no word; `blind_execute` for classes without positions; byte strings with tsCompareString and gin_cmp_prefix (core, by assumption) in `TextTable`; `C57_text_partial` adds VACUUM, other classes and attached columns |
| C58 | `MixedSearch`, `Props/MixedSearch` | as C55 to C57 through the same composition with C53: each kind of condition judges rows right (`Judges`), void conditions end the search before it starts |
| C59 | `Rank`, `Props/RankCovers` | the first loop of Cover finds the least end, the second the greatest begin, so each call finds the next minimal extent; the groups by induction over the extents; the elements of the document by induction over the query items |
| C60 | `ScanKeys`, `Props/ScanDirection` | an invariant of the list of keys through the loops of rumNewScanKey: all read forward until the first directed ORDER BY operator marks those on the main column; a second one is rejected; adjustScanDirection finds nothing to change |
| C61 | `VacConc`, `VacRead`, `Props/VacConc` (and `TreeDelete`, `TreeVacLemmas`: what each log record of VACUUM does) | VACUUM's records as further steps of the system of `Conc`: it starts when nobody pins the root, a page is deleted when nobody pins it; between two records a weaker tree invariant (`Browse`: leftmost path and leaf chain intact) is enough for scans, and the full one holds again when the root is released |
| C62 | the same | the same; partial: an ended cursor that delivered nothing is excluded (emptied first leaf, see below), and cursors that never end |
| C63 | `IndexConc`, `IndexConcStep`, `IndexConcInv`, `IndexConcRun`, `Props/IndexConc` | the entry tree and every posting tree are systems of `Conc`; a backend is in one of them at a time, with a job (insertion of the entries of a row, search for a key). Invariant: both kinds of systems are in order, the tuples are in order, what is on the list of a running insertion and what must be found by a running search are tracked by ghosts. A posting list becomes a tree in one visit to the leaf (nobody knows the tree before). VACUUM does not run meanwhile; a search with several keys is several backends |
| C64 | `IndexVacConc`, `IndexVacTree`, `IndexVacInv`, `IndexVacRunConc`, `IndexVacStart`, `IndexVacStep`, `Props/IndexVacConc` | rumbulkdelete as one more process in the system of `IndexConc`: descent page by page, one leaf of the entry tree per step (its lists cleaned, its trees and the right link noted under the lock), then each posting tree as in `VacConc` (cleanup lock on the root, one log record per step). Invariant of `IndexConcInv` with a ghost list of the entries of the table; positions of VACUUM carry what lies behind it and is already clean. Simplifications: no cancelled insertion, no cancelled VACUUM, one VACUUM at a time, keys whose encoded size is a multiple of 8, rows inserted (not bulk built) meanwhile |
| C65 | the same | the same; partial: a search that ended without any row is excluded (`C62_violated`) |
| C66 | `Props/QueryConc` | C63 for every entry of every condition (each search may begin and end at any moment of the query) put together by C20: the streams are right for the stable rows, so the scan is. Simplification: all searches are read to their end (a scan that stops early reads less of them) |
| C67 | `Props/QueryConc` | the same with C65; partial: searches that deliver nothing although a visible row has the key (`C62_violated`); reuse of row pointers when items are ordered by an attached value |
| C68 | `InvSearch`, `Props/InvSearch` | ruminv_extract_tsquery and ruminv_extract_tsvector as columns and scan keys on top of C53, consistency by C29; partial: matching rows missed by the code (`C68_missed_violated`, `C68_empty_document_violated`) |
| C69, C72 | `Debug`, `Props/Debug` | rum_page_items_info as a machine of calls over the bytes of a page; leaf chain and interior pages of a posting tree after any history (C49); find_page_in_posting_tree level by level; partial: trees of four levels (`C69_four_levels_violated`) |
| C70 | `Debug`, `Props/Debug` | the same for leaf pages of the entry tree; partial: last key of a page, keys without rows (`C70_last_key_violated`, `C70_empty_key_violated`) |
| C71 | `Debug`, `Props/Debug` | get_positions_to_text_datum with the size of its memory, on top of C27 |
| C73 | `TupleBytes`, `Props/TupleBytes` | IndexTupleData with its size and null bits, null bitmap, attributes, posting list and category byte, as both RumFormTuple and RumFormInteriorTuple write them and rumtuple_get_attrnum, rumtuple_get_key, rumReadTuple read them; an invariant of the tuple under each writing step; `Stored` is inductive over separators copied to higher levels. The bytes of the key itself are PostgreSQL's (a parameter with its decoder) |
| C74 | `IndexWalk`, `IndexWalkLemmas`, `IndexWalkStep`, `Props/IndexWalk` | collectMatchBitmap in the system of C64: one step per visit to a page of the entry tree (the leaf of the descent, the right neighbour, the page again after a posting tree with the search for the saved tuple, the restart when the root is a leaf no more); posting trees are read by the steps of C60. Invariant: a ghost `Ride` in the entry tree invariant tells of each key wanted whether its tuple is on or to the right of a page (`W`), or on or to the left of it (`L`), and lasts through splits and VACUUM. Proved: completeness and soundness of searches that end, errors only when the index has a key of an earlier column, the index stays right, no deadlock; in the first column (so in every one-column index) never an error; negation of "never an error" in a later column by a run of 14 steps |
| C75 | `Props/QueryWalk` | C67 over the system of C74: entries for one key are searched item by item (invariant of C74 with a ghost for the key), those for many keys are collected, sorted and joined (Collect), and the regular scan of C20 puts them together. The row an item comes from is the visible row: a row pointer is used for one row at a time. Partial: as C67 and C74, and how often an additional info is joined is left open (a page visited twice delivers its items twice) |
| C76 | `QSort`, `Props/QSort` | qsort_tuple statement by statement over an array of any length; loop invariants of insertion sort and of the three-way partition, induction over calls, with the depth of the stack |
| C77 | `TapeSort`, `BalSort`, `Props/TapeSort` | heap operations, merge loop, Algorithm D (inittapes, selectnewtape, dumptuples, beginmerge, mergeonerun, mergeruns) as state transitions; invariants: heap order, each tape's counts of real and dummy runs are the generalized Fibonacci numbers of the level, the multiset of all tuples is kept; version 15: the runs dealt in turn, the number of rounds bounded by the runs |
| C78 | `RankNorm`, `Props/RankNorm` | calc_score with all normalization methods over abstract arithmetic; the score is positive iff there is a minimal extent (C59) iff the document satisfies the query; signs are kept by every step |
| C79 | the same, over the reals | with method 32 the score is below 1; violated together with method 1 for a document with one position |
| C80 | the same, over the reals | the score with a method as a formula of the default score, the minimal extents (C59), the numbers of positions and words |
| C81 | `PageRefs`, `Props/PageRefs` | rumDataPageLeafRead with copyAddInfo = false as offsets into the page; following them in the unchanged page gives the stored values (C02); violated when the page changes before the items are used |
| C82 | `TapeBytes`, `Props/TapeBytes` | the bytes of a run (length word, memory image of the tuple, trailing length word with randomAccess, end mark) and of a RumSortItem; induction over the tuples |
| C83 | `Rank`, `Props/RankIndexSign` | get_docrep_addinfo fills its array exactly with the positions of the present entries (each entry once); with C59 the score is positive iff there is an extent iff the query holds. Queries with phrases are excluded: there the index answers 0 (C41_phrase_violated) |
| C84 | `DebugEntry`, `Props/DebugEntry` | the calls on an interior page list its downlinks; with the invariant of the entry tree (one child per downlink, right bounds) every page has a row and the keys separate the leaf pages; `+inf` only on the last downlink of a rightmost page |

The current state of each property, with what is missing for partial ones, is in `MANIFEST.json`.

## Where the code and the property disagree

Each line names the theorem with the witness.

* `rum_leaf_entry_page_items_info` lists only the first row of the last key of a page (the tuple counter is already past the end when
  the first item is delivered, `/repo/src/rum_debug_funcs.c:1265, 1634`) — `C70_last_key_violated`; a key with an empty posting list (left by
  VACUUM) has an item read that is not there — `C70_empty_key_violated`.
* `rum_leaf_data_page_items_info` returns NULL for most pages of a posting tree of four levels: the search goes down from the
  last page of a level (`/repo/src/rum_debug_funcs.c:733-740`) — `C69_four_levels_violated`.
* Inverted search ignores the weights in stored queries and asks for no recheck, so it returns queries that do
  not match — `C29_weights_violated`. Not modelled: ruminv_extract_tsquery reads the first item of a tsquery
  without checking that it has one (`''::tsquery`).
* Splitting a leaf with a batch keeps no right bound on the consumed items — `C08_right_bound_violated`.
* A batch of padded (8-byte aligned) items can overfill a page: re-padding is not counted —
  `C07_overfilled_align8`, `C08_overfilled_large_items`. Reachable only when building or adding batches.
* After a crash between a split and its downlink the next split of the orphan fails with "Lost path" —
  `C11_violated`; VACUUM misses the orphan (`C12_violated`) and deleting its left sibling cuts it off
  (`C14_violated`). Not modelled as theorems: VACUUM can then leave an interior page without downlinks.
* An index ordered by additional info and built from rows that arrive with equal row pointers out of order
  differs from one filled row by row — `C19_violated`.
* Mixed-order scans lose rows, return rows twice or pass stale additional info — `C20_order_by_attach_*`,
  `C20_mixed_recheck_violated`, `C43_mixed_violated`; distances of rows returned with recheck are computed
  from another row's data — `C43_recheck_violated`.
* Fast scan with two keys or columns loses rows — `C21_two_keys_violated`, `C21_two_columns_violated`.
* Backward page reading: `list[-1]` on pages of three items, missed items, empty pages —
  `C22_backward_*_violated`, `C23_*_violated`.
* Natural order: `C24_left_violated`, `C24_right_violated`. With partial-match entries (a prefix)
  the mark is not applied and the backward pass delivers nothing (`/repo/src/rumget.c:1207` asserts against it in
  debug builds): wrong order `C24_prefix_violated`; with `&` rows are lost, with `|` returned twice
  `C24_prefix_rows_violated`.
* Inverted search: nested all-negative operators, empty documents, more than 256 operators — `C29_*`.
* `%` at similarity threshold 0, distance of an empty array — `C31_similarity_violated`,
  `C32_empty_array_violated`.
* `"char"` and out-of-range intervals — `C33_char_violated`, `C34_*_violated`; timestamp differences overflow
  and infinities — `C35_*_violated`.
* Sort of items with NULL additional info — `C36_item_sort_violated`.
* NULL ORDER BY arguments, missing functions, sharing of ordering keys — `C38_*_violated`, `C48_*_violated`.
* A bitmap intersected with a lossy page answers without recheck — `C39_*_violated`.
* A cursor never ends while others keep inserting in front of it — `C40_cursor_never_ends`; a backward cursor
  misses rows moved by a concurrent split — `C46_violated`.
* Rank: `C41_*_violated` (phrases always score 0 in the index, repeated words, words without positions,
  collisions of the hash of a cover that is built from addresses).
* ORDER BY without WHERE: `C47_*_violated`.
* `a:* & !a`: operands are made unique ignoring the prefix flag — `C51_prefix_violated`; hashed words: any
  collision gives wrong rows without recheck — `C52_violated`.
* `a:* <-> b` over a document where only some of the words beginning with `a` have positions: NULL infos are
  dropped when the infos of a prefix are joined, and the row is returned without recheck — `C57_mixed_violated`;
  two such words at one position with different weights: one weight is lost and the row is missed —
  `C57_weights_violated`.
* Not modelled as a theorem: in a prefix search scanPostingTree puts items into the sort whose by-reference
  additional info still points into a page that is unpinned before the sort is read (`rumDataPageLeafRead` with
  copyAddInfo = false, `/repo/src/rumget.c:266`); posting lists are copied (`:473`). C53 takes infos as values.
* A cursor whose first leaf is emptied by VACUUM ends without any row — `C62_violated` (concurrently; at rest:
  `C23_forward_empty_first_violated`).
* Not modelled as a theorem: rumFindLeafPage in search mode releases and unpins the parent before it reads the
  child (`/repo/src/rumbtree.c:171-190`); a descent with a starting point can come to a page that a concurrent
  VACUUM has deleted in between (descents to the leftmost leaf cannot, `C61_tree`).
* Not modelled as a theorem: rumDeletePage starts over in a loop while somebody pins the page to be deleted
  (`/repo/src/rumvacuum.c:357-364`), with the root locked exclusively: an open cursor on an emptied page makes VACUUM spin
  and blocks all insertions into the tree until the cursor goes on. (`C61_no_deadlock`: the cursor can go on.)
* A range search in a column of a multicolumn index ends with the error "lost saved point in index" when, while it
  reads a posting tree, another backend inserts a new key of an earlier column (or splits the leaf) so that a tuple of the earlier column comes to the
  saved offset (`/repo/src/rumget.c:444-449`; GIN had the same fault and now goes on to the next tuple) — `C74_violated`.
* A page-by-page scan under VACUUM and insertions need not see concurrently inserted items in order (no harm: its only
  use is a bitmap); `C61_scan_complete` claims no order.
* rum_ts_score applies method 32 (divide by itself plus 1) in calc_score_docr, before the methods that look at the document; in PostgreSQL
  it comes last, "so that ranks are between zero and one". With methods 1 and 32 and a document with one position the score can be above 1
  (`/repo/src/rum_ts_utils.c:1959`, `2022`) — `C79_scaled_violated`.
* scanPostingTree reads with copyAddInfo = false (`/repo/src/rumget.c:273`) although the items are sorted and given to the operator class after
  the page was unlocked and unpinned (`/repo/src/rum.h:973` says a copy is needed then): for types passed by reference (word positions) a prefix
  search sees whatever is in the buffer by then — `C81_page_changed_violated`.
