{"id": "C01", "title": "Stored row pointers read back unchanged", "statement": "Whatever heap row pointer (block, offset) is stored after any other row pointer in a posting list or posting-tree leaf page, reading the bytes back yields exactly that (block, offset), the same 'additional info is NULL' flag, and consumes exactly the bytes that were written, whatever bytes follow.", "quantifier": "every block number and offset number the platform allows, every predecessor pointer not after it, both values of the NULL flag, every continuation of the byte stream", "why_tests_cant": "the variable-length encoding has 2^48 x 2^48 input pairs and boundary cases at every 7-bit and 6-bit group", "anchors": ["src/rumdatapage.c:rumDataPageLeafWriteItemPointer", "src/rum.h:rumDataPageLeafReadItemPointer", "src/rumdatapage.c:rumDataPageLeafGetItemPointerSize"]}
{"id": "C02", "title": "Whole posting lists (pointer + additional info) read back unchanged", "statement": "Writing a sorted list of index items (row pointer plus optional additional value of by-value, fixed-length or variable-length type) and reading it back item by item returns the identical list, and the space that was reserved for it beforehand is exactly the number of bytes written, so a page or index tuple is never overrun.", "quantifier": "every list of items of any length, every additional-info type layout (by-value size, by-reference fixed length, varlena short/long header, alignment) and every start offset; both item orders (by row pointer, by additional info)", "why_tests_cant": "lists are unbounded, and alignment padding and size accounting depend on the running offset of every earlier item", "anchors": ["src/rumdatapage.c:rumPlaceToDataPageLeaf", "src/rumdatapage.c:rumCheckPlaceToDataPageLeaf", "src/rumdatapage.c:rumDatumWrite", "src/rumdatapage.c:rumComputeDatumSize", "src/rum.h:rumDataPageLeafRead"]}
{"id": "C03", "title": "Items are totally ordered", "statement": "The order the index keeps its items in is a strict total order for each index column: antisymmetric, transitive, total; two items compare equal only if their row pointers are equal (and, in additional-info order, their additional infos are), and NULL additional info comes first.", "quantifier": "all triples of items, both ordering modes, every additional-info comparison function that is itself a total order", "why_tests_cant": "transitivity is a statement about all triples", "anchors": ["src/rumdatapage.c:compareRumItem", "src/rumdatapage.c:rumCompareItemPointers"]}
{"id": "C04", "title": "Index keys are totally ordered, column first, NULLs last", "statement": "The order of index keys is a strict total order over (column, null category, value): columns first, then normal values by the column's comparison function, then NULL key, empty-item and NULL-item placeholders; values never compare equal across categories.", "quantifier": "all pairs and triples of keys, any total-order comparison function", "why_tests_cant": "a law over all triples of keys", "anchors": ["src/rumutil.c:rumCompareEntries", "src/rumutil.c:rumCompareAttEntries", "src/rumutil.c:cmpEntries"]}
{"id": "C05", "title": "Merging two posting lists is set union", "statement": "Merging two sorted item lists yields a sorted list without duplicates that contains exactly the items of either list; when both hold an equal item one copy survives.", "quantifier": "all pairs of sorted item lists of any length, both item orders", "why_tests_cant": "unbounded lists and interleavings", "anchors": ["src/rumdatapage.c:rumMergeRumItems"]}
{"id": "C06", "title": "The in-page directory never hides an item", "statement": "On a posting-tree leaf page with any number of items, the 32-slot in-page directory is always consistent with the page contents, so that looking up an item through it gives the same answer and the same position as reading the whole page from the start.", "quantifier": "every leaf page content (any number of items, including fewer than 32 and more than 32) and every item searched for", "why_tests_cant": "the number of items, their encodings and the directory arithmetic interact for every size", "anchors": ["src/rumdatapage.c:updateItemIndexes", "src/rumdatapage.c:findInLeafPage", "src/rumdatapage.c:convertIndexToKey"]}
{"id": "C07", "title": "Adding rows to a leaf page keeps every row already there", "statement": "Placing a sorted batch of new items into a leaf page that has room yields exactly the old items plus the consumed part of the batch, sorted and without duplicates; the part reported as not yet placed is exactly the rest, and the page is never overfilled.", "quantifier": "every leaf page, every sorted batch, every amount of free space", "why_tests_cant": "unbounded contents and all interleavings of old and new items, including equal ones", "anchors": ["src/rumdatapage.c:dataPlaceToPage", "src/rumdatapage.c:dataIsEnoughSpace"]}
{"id": "C08", "title": "A leaf page split loses, duplicates and reorders nothing", "statement": "Splitting a full posting-tree leaf page while adding items yields a left and a right page that together hold exactly the old items plus the consumed new ones, all items on the left are <= the bound recorded for the left page and all on the right are greater, and items on the right page do not exceed the right bound the page had before.", "quantifier": "every full page, every batch of new items, every insertion point", "why_tests_cant": "split points and the interleaving of old and new items are unbounded", "anchors": ["src/rumdatapage.c:dataSplitPageLeaf"]}
{"id": "C09", "title": "A posting tree is a faithful set of rows under any insert history", "statement": "After any sequence of insertions into the posting tree of a key (with leaf splits, internal-page splits and root splits as they fall), the tree holds exactly the inserted items, sorted, each once, and a descent from the root for any item arrives at the leaf page that holds it or would hold it.", "quantifier": "every sequence of insertions, every page capacity, any tree depth", "why_tests_cant": "histories are unbounded and split shapes depend on order", "anchors": ["src/rumdatapage.c:rumInsertItemPointers", "src/rumbtree.c:rumInsertValue", "src/rumbtree.c:rumFindLeafPage", "src/rumdatapage.c:dataSplitPageInternal", "src/rumdatapage.c:rumDataFillRoot", "src/rumdatapage.c:dataLocateItem"]}
{"id": "C10", "title": "A crash or concurrent reader between the steps of a split sees every row", "statement": "At every point where the server can crash (between the write-ahead-log records of one insertion) or where a reader can look (between page unlocks), a search that descends from the root and follows right links still finds every item that was stored before, and the new item if its leaf record was written.", "quantifier": "every insertion history and every prefix of the log records of the last insertion", "why_tests_cant": "crash points and interleavings cannot be enumerated by tests", "anchors": ["src/rumbtree.c:rumInsertValue", "src/rumbtree.c:rumFindLeafPage", "src/rumget.c:moveRightIfItNeeded"]}
{"id": "C11", "title": "Index stays writable after a crash in the middle of a split", "statement": "After a crash between the record that splits a page and the record that adds the new page to its parent, later insertions of any item succeed.", "quantifier": "every crash point and every later insertion", "why_tests_cant": "requires a crash between two specific log records, followed by a later split of the orphaned page", "anchors": ["src/rumbtree.c:rumFindParents", "src/rumbtree.c:rumInsertValue"]}
{"id": "C12", "title": "VACUUM removes exactly the dead rows", "statement": "After VACUUM, for every key, an index item is present if and only if it was present before and its row was not reported dead; surviving items keep their order and additional info, in posting lists and in posting trees alike.", "quantifier": "every tree content, every set of dead rows, every crash/split history before the VACUUM", "why_tests_cant": "sets of dead rows and tree shapes are unbounded; includes trees left by interrupted splits", "anchors": ["src/rumvacuum.c:rumVacuumPostingList", "src/rumvacuum.c:rumVacuumPostingTreeLeaves", "src/rumvacuum.c:rumVacuumEntryPage", "src/rumvacuum.c:rumbulkdelete"]}
{"id": "C13", "title": "VACUUM never makes a page or tuple larger", "statement": "Re-encoding the surviving items of a posting list or leaf page never needs more space than the original list took, so VACUUM can always rewrite in place.", "quantifier": "every sorted posting list and every subset of survivors", "why_tests_cant": "re-encoding changes every delta after a removed item", "anchors": ["src/rumvacuum.c:rumVacuumPostingList", "src/rumdatapage.c:rumDataPageLeafGetItemPointerSize"]}
{"id": "C14", "title": "Deleting an empty posting-tree page keeps every other row reachable", "statement": "When VACUUM unlinks an empty leaf page, the left-to-right chain of leaf pages and the downlinks still reach every remaining item in the same order, and no page holding an item is ever deleted.", "quantifier": "every tree and every choice of deletable page", "why_tests_cant": "depends on sibling and parent shapes of any size", "anchors": ["src/rumvacuum.c:rumDeletePage", "src/rumvacuum.c:rumScanToDelete"]}
{"id": "C15", "title": "The index as a whole is a map from keys to row sets", "statement": "After any sequence of row insertions, looking up any key in the index returns exactly the rows (and additional info) inserted under that key: storing rows inline in the key's tuple, or in a separate posting tree once the tuple is too big, is invisible.", "quantifier": "all insertion sequences over all keys, all tuple-size limits", "why_tests_cant": "unbounded histories with in-place growth, conversion and splits", "anchors": ["src/ruminsert.c:rumEntryInsert", "src/ruminsert.c:addItemPointersToLeafTuple", "src/ruminsert.c:buildFreshLeafTuple", "src/ruminsert.c:createPostingTree", "src/rumentrypage.c:entryLocateLeafEntry"]}
{"id": "C16", "title": "Splitting a key page keeps every key and fits", "statement": "Splitting an entry-tree page around a newly inserted or replaced tuple puts every tuple on exactly one side in the original order, the separator is the greatest key of the left side, and both sides fit in a page with neither empty, for tuples up to the maximum item size.", "quantifier": "every page content, every insert position, every tuple size up to the limit", "why_tests_cant": "the size-balancing loop must work for all combinations of tuple sizes", "anchors": ["src/rumentrypage.c:entrySplitPage", "src/rum.h:RumMaxItemSize"]}
{"id": "C17", "title": "Key lookup by binary search is exact", "statement": "Binary search within entry-tree pages finds a key if and only if it is present, otherwise the position that keeps the page sorted; on interior pages it selects the child whose key range contains the search key, treating the last downlink of the rightmost page as +infinity.", "quantifier": "every sorted page content of any size and every search key", "why_tests_cant": "off-by-one behaviour for all sizes", "anchors": ["src/rumentrypage.c:entryLocateEntry", "src/rumentrypage.c:entryLocateLeafEntry", "src/rumdatapage.c:dataLocateItem"]}
{"id": "C18", "title": "Every row gets index entries, sorted and distinct", "statement": "Extracting index entries from a column value yields a non-empty list: a NULL column gives one NULL-item placeholder, a value without keys one empty-item placeholder, otherwise exactly the distinct keys of the value in key order (each with the additional info of that key), NULL keys last.", "quantifier": "every key array, every null bitmap, every comparison function", "why_tests_cant": "unbounded arrays with arbitrary duplicates and NULLs", "anchors": ["src/rumutil.c:rumExtractEntries"]}
{"id": "C19", "title": "CREATE INDEX equals inserting the rows one by one", "statement": "The in-memory accumulator used by CREATE INDEX delivers, key by key in key order, exactly the items added to it, each posting list sorted, whatever the order of arrival; flushing it at arbitrary moments does not change the final index contents.", "quantifier": "every table content, every heap scan order, every placement of memory-limit flushes", "why_tests_cant": "flush placement depends on memory; unbounded data", "anchors": ["src/rumbulk.c:rumCombineData", "src/rumbulk.c:rumInsertBAEntries", "src/rumbulk.c:rumGetBAEntry", "src/ruminsert.c:rumBuildCallback"]}
{"id": "C20", "title": "A regular index scan returns exactly the matching rows", "statement": "For any number of scan keys, each with any number of entries, a regular scan returns exactly the rows for which every key's consistency function is satisfied by the presence of its entries (plus those marked for recheck), each row exactly once, in scan order.", "quantifier": "all posting streams, all consistency functions, all numbers of keys and entries", "why_tests_cant": "skipping logic interacts over unbounded streams", "anchors": ["src/rumget.c:scanGetItemRegular", "src/rumget.c:keyGetItem", "src/rumget.c:entryGetItem"]}
{"id": "C21", "title": "A fast scan returns the same rows as a regular scan", "statement": "When the index chooses its fast scan strategy the rows returned are exactly those the regular scan returns, in the same order, provided the pre-consistency function never rejects what the consistency function would accept.", "quantifier": "all posting streams, all numbers of keys and entries, all pre-consistency functions that are sound", "why_tests_cant": "skipping decisions over unbounded streams and several keys", "anchors": ["src/rumget.c:scanGetItemFast", "src/rumget.c:preConsistentCheck", "src/rumget.c:entryShift", "src/rumget.c:entryFindItem"]}
{"id": "C22", "title": "Reading a leaf page in either direction from any position yields the right items", "statement": "Loading a posting-tree leaf page into a scan, forward or backward, starting from a given item (inclusive or exclusive), positions on the first item at or beyond it in the scan direction if the page has one, and reports that the page has none otherwise.", "quantifier": "every page content, every start item, both directions, inclusive and exclusive", "why_tests_cant": "the directory boundaries differ for every page size", "anchors": ["src/rumget.c:scanPage", "src/rumget.c:entryGetNextItem"]}
{"id": "C23", "title": "Scanning a posting tree page by page yields every item once", "statement": "A scan over a posting tree in either direction, including positioning in the middle, returns every stored item from its starting point exactly once in order, including when some leaf pages are empty after VACUUM.", "quantifier": "every sequence of leaf pages, with empty ones in any place, every start mark", "why_tests_cant": "empty pages arise only from deletions at particular places", "anchors": ["src/rumget.c:startScanEntry", "src/rumget.c:setListPositionScanEntry", "src/rumget.c:entryGetNextItem"]}
{"id": "C24", "title": "Nearest-first ordering returns each row once, nearest first", "statement": "For ORDER BY on the column the index is sorted by, rows come out in non-decreasing distance; for the two-sided distance operator the left and right scans are merged so that every matching row appears exactly once.", "quantifier": "every set of additional-info values, every query value, ties included", "why_tests_cant": "ties and the row at exactly the query point are corner cases for every dataset", "anchors": ["src/rumget.c:rumgettuple", "src/rumget.c:reverseScan", "src/rumscan.c:lookupScanDirection", "src/rumscan.c:adjustScanDirection", "src/rumget.c:setListPositionScanEntry"]}
{"id": "C25", "title": "Full-text search through the index agrees with the @@ operator", "statement": "For any tsquery of AND, OR, NOT, phrase operators (with any distance, nested) and weights, and any document, the index's match decision made from the stored word positions equals evaluating the query on the document, and a row is only rechecked against the heap when the index cannot decide.", "quantifier": "all query trees of any depth, all documents and word positions", "why_tests_cant": "query trees and position lists are unbounded", "anchors": ["src/rum_ts_utils.c:rum_TS_execute", "src/rum_ts_utils.c:rum_phrase_execute", "src/rum_ts_utils.c:rum_phrase_output", "src/rum_ts_utils.c:checkcondition_rum", "src/rum_ts_utils.c:rum_tsquery_consistent"]}
{"id": "C26", "title": "Pre-filtering never loses a match", "statement": "If the pre-consistency check for a text query says a row cannot match, given only which words may be present, then no document whose words are among these matches the query.", "quantifier": "all query trees, all presence vectors, all documents", "why_tests_cant": "a statement over all documents compatible with a presence vector", "anchors": ["src/rum_ts_utils.c:rum_tsquery_pre_consistent", "src/rum_ts_utils.c:pre_checkcondition_rum"]}
{"id": "C27", "title": "Word positions survive storage", "statement": "Compressing a sorted list of word positions with weights into the stored additional info and decompressing it returns the same list; the number of positions is recoverable from the bytes and the compressed size never exceeds what was allocated.", "quantifier": "every sorted list of positions 1..16383 with weights A-D", "why_tests_cant": "all lists of any length and all deltas", "anchors": ["src/rum_ts_utils.c:compress_pos", "src/rum_ts_utils.c:decompress_pos", "src/rum_ts_utils.c:count_pos", "src/rum_ts_utils.c:rum_extract_tsvector_internal"]}
{"id": "C28", "title": "Joining position lists is sorted union", "statement": "Joining two stored position lists gives the sorted union of the positions, each once, keeping the first list's weight on ties.", "quantifier": "all pairs of sorted position lists", "why_tests_cant": "unbounded lists", "anchors": ["src/rum_ts_utils.c:rum_ts_join_pos"]}
{"id": "C29", "title": "Indexed queries match documents exactly (inverted search)", "statement": "With an index over tsquery values, searching with a tsvector returns exactly the stored queries that match the document.", "quantifier": "all stored query trees (nested AND/OR/NOT) and all documents", "why_tests_cant": "query trees and documents are unbounded", "anchors": ["src/rumtsquery.c:make_query_item_wrap", "src/rumtsquery.c:calc_wraps", "src/rumtsquery.c:extract_wraps", "src/rumtsquery.c:ruminv_tsvector_consistent", "src/rumtsquery.c:check_allnegative"]}
{"id": "C30", "title": "Variable-byte integers in query nodes read back unchanged", "statement": "Encoding any sequence of unsigned 32-bit integers (sum, parent, flags of query nodes) with the variable-byte code and decoding it returns the same sequence.", "quantifier": "every 32-bit value and every continuation of the stream", "why_tests_cant": "2^32 values in all sequences", "anchors": ["src/rumtsquery.c:encode_varbyte", "src/rumtsquery.c:decode_varbyte", "src/rumtsquery.c:encode_wraps", "src/rumtsquery.c:decode_tsquery_node"]}
{"id": "C31", "title": "Array operators through the index agree with the operators", "statement": "For overlap (&&), contains (@>), contained (<@), equality (=) and similarity (%) on arrays, the index decision for a row is exactly the operator's truth value, or a recheck is requested whenever the index alone cannot decide; a row satisfying the operator is never missed.", "quantifier": "all pairs of arrays with duplicates, NULL elements and empty arrays", "why_tests_cant": "arrays are unbounded", "anchors": ["src/rum_arr_utils.c:rum_anyarray_consistent", "src/rum_arr_utils.c:rum_extract_anyarray_query", "src/rum_arr_utils.c:rum_anyarray_similar"]}
{"id": "C32", "title": "Array distance computed from the index equals the distance operator", "statement": "The distance the index reports for ORDER BY array <=> query equals what the operator computes from the two arrays, for each supported similarity measure.", "quantifier": "all pairs of arrays", "why_tests_cant": "unbounded arrays with duplicates", "anchors": ["src/rum_arr_utils.c:rum_anyarray_ordering", "src/rum_arr_utils.c:rum_anyarray_distance", "src/rum_arr_utils.c:getNumOfIntersect", "src/rum_arr_utils.c:getSimilarity"]}
{"id": "C33", "title": "Scalar range queries through the index agree with comparison operators", "statement": "For each btree-style operator class and each of <, <=, =, >=, >, the rows returned by the index are exactly those whose column value satisfies the comparison with the query value.", "quantifier": "every column value, every query value, every column type's total order with its leftmost value", "why_tests_cant": "values are unbounded; correctness rests on leftmost values and the stop condition of the partial-match walk", "anchors": ["src/btree_rum.c:rum_btree_extract_query", "src/btree_rum.c:rum_btree_compare_prefix", "src/btree_rum.c:rum_btree_consistent"]}
{"id": "C34", "title": "The leftmost value of each type really is leftmost", "statement": "For each scalar type the value the index starts '<' and '<=' walks from is not greater than any value of the type.", "quantifier": "every value of each supported type", "why_tests_cant": "requires the extreme values of each type", "anchors": ["src/btree_rum.c:leftmostvalue_char", "src/btree_rum.c:leftmostvalue_interval", "src/btree_rum.c:leftmostvalue_int4"]}
{"id": "C35", "title": "Scalar distances are correct", "statement": "The distance operators <=>, <=| and |=> return the absolute, left-only and right-only difference (infinity on the wrong side), are symmetric/non-negative as documented, and the ordering function used inside the index agrees with the operator.", "quantifier": "all pairs of values, infinities included", "why_tests_cant": "arithmetic over the whole domain, including differences that overflow", "anchors": ["src/btree_rum.c:RUM_DEFINE_DISTANCE_OP", "src/btree_rum.c:rum_int4_distance"]}
{"id": "C36", "title": "Sorted results come out sorted and complete", "statement": "The sort used for ORDER BY results returns a permutation of the rows put in, ordered by distances lexicographically and then by row pointer when requested; the item sort used for building orders items as the index compares them.", "quantifier": "every multiset of rows and distances (NaN excluded)", "why_tests_cant": "unbounded inputs", "anchors": ["src/rumsort.c:comparetup_rum", "src/rumsort.c:comparetup_rumitem", "src/rumsort.c:compare_rum_itempointer"]}
{"id": "C37", "title": "Index options are validated", "statement": "An index is accepted with attach/to/order_by_attach options only if both columns are named, exist in the table and in the index and are distinct, the target column's operator class stores no additional info of its own, and (with order_by_attach) the attached column is pass-by-value; then the target column stores additional info of the attached column's type and every other column keeps its own. Any other combination is rejected with an error.", "quantifier": "every option combination and every column layout", "why_tests_cant": "the option space times operator-class layouts", "anchors": ["src/rumutil.c:initRumState"]}
{"id": "C38", "title": "Scan setup preserves query meaning", "statement": "Scan key construction treats a NULL query argument as matching no row (strict operators), empty queries according to their search mode, shares identical entries between keys without changing results, and never reports a row as matching when a key is void.", "quantifier": "every list of scan keys and order-by keys", "why_tests_cant": "all combinations of keys, duplicates, NULLs", "anchors": ["src/rumscan.c:rumNewScanKey", "src/rumscan.c:rumFillScanKey", "src/rumscan.c:rumFillScanEntry", "src/rumscan.c:initScanKey"]}
{"id": "C39", "title": "A bitmap test of a row pointer is exact", "statement": "Testing whether a bitmap contains a row pointer is true for every row added exactly or on a page added as lossy, never for a row of a page nobody mentioned, and an answer given without asking for a recheck is exact.", "quantifier": "every history of additions, unions and intersections, every memory limit and every row pointer", "why_tests_cant": "hash table and bit arithmetic over all offsets", "anchors": ["src/rumtidbitmap.c:rum_tbm_contains_tid", "src/tidbitmap/tidbitmap17.c"]}
{"id": "C40", "title": "Concurrent readers never miss stable rows", "statement": "A forward scan over a posting tree that runs concurrently with insertions and page splits returns every item that was present when it started and is not deleted meanwhile, under every interleaving of page-level steps.", "quantifier": "all interleavings of one scan with any sequence of insert/split steps", "why_tests_cant": "schedules are unbounded", "anchors": ["src/rumget.c:entryGetNextItem", "src/rumbtree.c:rumStep", "src/rumbtree.c:rumInsertValue", "src/rumget.c:moveRightIfItNeeded"]}
{"id": "C41", "title": "Relevance score is well defined", "statement": "The rank distance of a document for a query computed from the positions stored in the index equals the distance the rum_ts_distance function computes from the document itself.", "quantifier": "all queries and documents", "why_tests_cant": "positions and covers are unbounded", "anchors": ["src/rum_ts_utils.c:get_docrep_addinfo", "src/rum_ts_utils.c:get_docrep", "src/rum_ts_utils.c:Cover", "src/rum_ts_utils.c:calc_score_docr"]}
{"id": "C42", "title": "Operator class validation accepts only complete classes", "statement": "amvalidate reports success only for operator classes whose support functions and operators have the signatures the access method calls and in which every required support function is present.", "quantifier": "all catalog contents", "why_tests_cant": "catalog contents are arbitrary", "anchors": ["src/rumvalidate.c:rumvalidate"]}
{"id": "C43", "title": "Distances are computed from the row's own data", "statement": "For ORDER BY distance keys evaluated from index entries (for example text rank), the distance function is given, for each returned row, exactly the query terms that occur in this row together with the additional info stored for this row.", "quantifier": "all sets of scan keys (filters and ORDER BY), all stored posting lists, all rows returned by a scan", "why_tests_cant": "Whether entries of ORDER BY keys stand at the returned row depends on the interplay of all keys' posting lists, on recheck flags and on scan order; tests see a few combinations.", "anchors": ["src/rumget.c: scanGetItemRegular, keyGetOrdering, insertScanItem, isScanWithAltOrderKeys"]}
{"id": "C44", "title": "Concurrent insertions lose nothing", "statement": "Under every interleaving of any number of insertions, splits, scans and aborted operations on one posting tree, at every moment searches find exactly what has been stored, nothing stored gets lost, nothing that was not inserted appears, and when an insertion has reported success every row of its batch is found.", "quantifier": "all histories with crashes, all interleavings of page visits of any number of backends, all batches, all abort points", "why_tests_cant": "The number of schedules of page visits is unbounded; tests run a handful.", "anchors": ["src/rumbtree.c:rumInsertValue", "src/rumbtree.c:rumFindLeafPage", "src/rumbtree.c:rumFindParents", "src/rumdatapage.c:rumInsertItemPointers"]}
{"id": "C45", "title": "Concurrent insertions neither fail nor deadlock", "statement": "On a posting tree used by any number of backends none of which is stopped in the middle of an operation, no insertion ends with the error 'Lost path', and as long as some backend is busy, some busy backend can make its next page visit (no deadlock among page locks).", "quantifier": "all interleavings of page visits of any number of backends, all batches", "why_tests_cant": "Deadlocks and lost paths need particular schedules of several splits; the schedules are unbounded.", "anchors": ["src/rumbtree.c:rumInsertValue", "src/rumbtree.c:rumFindParents"]}
{"id": "C46", "title": "Concurrent backward scans never miss stable rows", "statement": "A backward scan (descending natural order) over a posting tree that runs concurrently with insertions and page splits returns every item that was present when it started and lies at or before its start position.", "quantifier": "all interleavings of one backward scan with any sequence of insert/split steps", "why_tests_cant": "schedules are unbounded", "anchors": ["src/rumget.c:entryGetNextItem", "src/rumbtree.c:rumStep", "src/rumget.c:startScanEntry"]}
{"id": "C47", "title": "ORDER BY without WHERE", "statement": "A query with only an ORDER BY distance and no WHERE clause returns every row that has an entry in the index's first column exactly once, each with the distance computed from what the index stores for that row under the ordering keys, and no row before a nearer one.", "quantifier": "every index content (any number of entries, rows per entry, posting lists and posting trees), every ordering query, every distance function, every way the sort breaks ties", "why_tests_cant": "The scan walks all entries of the column and re-positions the ordering entries for every list; whether a row gets the right distance depends on how rows interleave over entries, pages and earlier VACUUMs, which a test only samples.", "anchors": ["src/rumget.c:scanGetItemFull", "src/rumget.c:entryGetNextItemList", "src/rumget.c:keyGetOrdering", "src/rumscan.c:rumNewScanKey"]}
{"id": "C48", "title": "Rows are ordered by the distances of the ORDER BY operators", "statement": "For an index scan with one or several ORDER BY distance operators (on an attached column, on a column ordered by its own values, or on a column with a query-wide distance), the values the rows are sorted by are, operator by operator, the distances between the row's indexed values and the operators' arguments (infinite for NULL), so that no row comes after one it must precede.", "quantifier": "every WHERE and ORDER BY list, every index configuration with an attached column, every row content including NULL, every distance function", "why_tests_cant": "The value to measure is passed between scan keys through flags and shared fields; whether each operator gets the right one depends on the combination and order of keys, of which there are unboundedly many.", "anchors": ["src/rumget.c:insertScanItem", "src/rumget.c:keyGetOrdering", "src/rumscan.c:rumFillScanKey", "src/rumget.c:rumgettuple"]}
{"id": "C49", "title": "The index follows the table over its whole life", "statement": "After CREATE INDEX on a table and any sequence of row insertions and VACUUMs, no operation having failed, a lookup of any key of any column finds exactly the rows of the table at that moment whose value contains the key, each once, in order and with its additional info; rows removed by VACUUM are gone even if their TID is used again. During VACUUM, after every log record, no live row is missing.", "quantifier": "every initial table, every sequence of insertions and VACUUMs, every set of dead rows, every reuse of TIDs, every log record", "why_tests_cant": "Histories are unbounded and mix inline lists, posting trees, page splits and page deletions of all keys; a row lost or resurrected shows only for particular shapes.", "anchors": ["src/rumvacuum.c:rumbulkdelete", "src/rumvacuum.c:rumVacuumEntryPage", "src/rumvacuum.c:rumVacuumPostingTree", "src/ruminsert.c:ruminsert", "src/ruminsert.c:rumbuild"]}
{"id": "C50", "title": "A query through the index returns exactly the matching rows of the table", "statement": "After CREATE INDEX and any sequence of row insertions and VACUUMs, a query of any number of conditions on indexed columns returns exactly the rows now in the table that every condition's consistency function accepts when it is told truthfully which of the condition's keys the row contains and with which additional info; each row once, in order; the recheck flag is set exactly for the rows for which a consistency function asked for it; the scan ends. It holds for the regular scan and, with one condition, for the fast scan.", "quantifier": "every table history, every set of conditions, every sound consistency and pre-consistency function, every starting state of the scan buffers", "why_tests_cant": "The answer depends on the whole chain from extraction over the pages' bytes to the scan loop; tables, page shapes and queries are unbounded.", "anchors": ["src/rumget.c:rumgettuple", "src/rumget.c:scanGetItemRegular", "src/rumget.c:scanGetItemFast", "src/rumget.c:startScanEntry", "src/ruminsert.c:ruminsert", "src/rumvacuum.c:rumbulkdelete"]}
{"id": "C51", "title": "Full-text search through the index returns exactly the documents that match", "statement": "For a tsvector column and any tsquery, a search through the index returns every row whose document matches the query under the text-search semantics (AND, OR, NOT, phrases with distances, weights, prefixes), returns each row once, returns no row whose document does not match unless it asks the executor to recheck it, and asks for no recheck when the index keeps positions and the documents have positions.", "quantifier": "every table history, every set of documents, every tsquery", "why_tests_cant": "The query tree, the documents, the deduplication of operands and the position encoding interact; the defect with a prefix and an exact operand of one lexeme shows only for particular queries.", "anchors": ["src/rum_ts_utils.c:rum_extract_tsvector", "src/rum_ts_utils.c:rum_extract_tsquery", "src/rum_ts_utils.c:rum_tsquery_consistent", "src/rum_ts_utils.c:checkcondition_rum", "src/rum_ts_utils.c:rum_tsquery_pre_consistent"]}
{"id": "C52", "title": "Full-text search with hashed words gives the same answers", "statement": "With an operator class that stores the hashes of words instead of the words, a search returns every row whose document matches, and no other row without asking the executor to recheck it.", "quantifier": "every hash function into 32 bits, every set of documents, every tsquery", "why_tests_cant": "Collisions are rare: no test with natural words meets one, yet for every hash function there are words that collide.", "anchors": ["src/rum_ts_utils.c:rum_extract_tsvector_hash", "src/rum_ts_utils.c:rum_extract_tsquery_hash", "src/rum_ts_utils.c:build_tsvector_hash_entry", "src/rum_ts_utils.c:rum_tsquery_consistent"]}
{"id": "C53", "title": "Prefix, range and whole-index searches return exactly the matching rows of the table", "statement": "After CREATE INDEX and any sequence of insertions and VACUUMs, a query whose conditions search for single keys, for all keys accepted by a partial match function, for all keys or for everything, returns exactly the rows of the table that all conditions accept, each once, in order, with the right recheck flags; the consistency function of each condition is told for each of its entries whether the row has one of the keys searched for and the joined additional infos of all of them.", "quantifier": "every table, every history of insertions and VACUUMs, every operator class, every number of conditions and entries, every partial match function that accepts a range, every sizes of posting lists, posting trees and entry trees, every sorting algorithm", "why_tests_cant": "The walk crosses page borders of the entry tree and of posting trees at places that depend on the whole history; joining depends on how many keys of a row are in the range.", "anchors": ["src/rumget.c:collectMatchBitmap", "src/rumget.c:scanPostingTree", "src/rumget.c:moveRightIfItNeeded", "src/rumget.c:startScanEntry", "src/rumget.c:entryGetItem", "src/rumget.c:scanGetItemRegular", "src/rumsort.c:comparetup_rumitem"]}
{"id": "C54", "title": "Comparisons on scalar columns return exactly the matching rows of the table", "statement": "After CREATE INDEX and any sequence of insertions and VACUUMs, a search by any number of conditions `column OP value` with <, <=, =, >=, > on scalar columns returns exactly the rows for which all of them are true in SQL, each once, in order, without recheck.", "quantifier": "every table, every history, every type with a total order and a least value, every number of conditions on any columns, with or without an attached column", "why_tests_cant": "The rows found depend on where keys lie on pages of the entry tree and in posting lists or trees, which depends on the whole history.", "anchors": ["src/btree_rum.c:rum_btree_extract_value", "src/btree_rum.c:rum_btree_extract_query", "src/btree_rum.c:rum_btree_compare_prefix", "src/btree_rum.c:rum_btree_consistent", "src/rumget.c:collectMatchBitmap"]}
{"id": "C55", "title": "Indexes on plain scalar columns answer comparisons without exception", "statement": "In an index on scalar columns without an attached column and with order_by_attach off, searches by any number of <, <=, >=, > conditions return exactly the rows of the table for which all are true, in the order of their row pointers, each once, without recheck, after CREATE INDEX on any table and any sequence of insertions and VACUUMs; searches with = as well, as long as there was no VACUUM.", "quantifier": "every table with possible row pointers and keys that fit in an index tuple, every history, every totally ordered type with a least value, every number of conditions", "why_tests_cant": "It must hold for every history of page splits, posting list conversions and VACUUMs.", "anchors": ["src/btree_rum.c:rum_btree_extract_query", "src/btree_rum.c:rum_btree_compare_prefix", "src/rumget.c:collectMatchBitmap", "src/rumget.c:scanGetItemRegular", "src/ruminsert.c:ruminsert", "src/rumvacuum.c:rumbulkdelete"]}
{"id": "C56", "title": "Array searches return the matching rows of the table", "statement": "In an index with rum_anyarray_ops on array columns, created on a table with any rows and followed by any number of insertions, a search by any number of conditions with &&, @>, <@, = and % (the latter with a similarity threshold that disjoint arrays do not reach) returns every row for which all conditions are true, no row twice, and no other row unless the executor is told to recheck it; with &&, @> and % nothing needs a recheck. NULL arrays match nothing; empty arrays and empty queries are handled as the operators define.", "quantifier": "every table with arrays of any sizes, every element type with a total order (equal elements need not be identical), every number of conditions, every query array, every similarity function", "why_tests_cant": "The answer depends on which placeholder and element keys exist, on hidden entries of the search mode and on page layout after any history.", "anchors": ["src/rum_arr_utils.c:rum_extract_anyarray", "src/rum_arr_utils.c:rum_extract_anyarray_query", "src/rum_arr_utils.c:rum_anyarray_consistent", "src/rumscan.c:rumFillScanKey", "src/rumscan.c:initScanKey", "src/rumget.c:scanGetItemRegular"]}
{"id": "C57", "title": "Full-text searches with prefixes, negation and several conditions return the matching rows", "statement": "In an index with rum_tsvector_ops, created on a table with any rows and followed by any number of insertions, a search by any number of conditions column @@ query, with AND, OR, NOT, phrases, weights and prefix words, including queries that match documents with none of their words, returns every row whose documents match, no row twice, and no other row unless the executor is told to recheck it; if all words have positions and no weight is under NOT, nothing needs a recheck. Scope: no lexeme is both a word and a prefix in a query; the words of a document that a prefix stands for all have positions or none has, and no two of them share a position with different weights; at most 42 positions per word; positions plus phrase distances below 2^14.", "quantifier": "every table of documents in that scope, every query tree of any size, every number of conditions, every page layout", "why_tests_cant": "The answer depends on the join of positions over any number of keys, on hidden entries and on page layout after any history.", "anchors": ["src/rum_ts_utils.c:rum_extract_tsquery_internal", "src/rum_ts_utils.c:rum_tsquery_consistent", "src/rum_ts_utils.c:rum_ts_join_pos", "src/rum_ts_utils.c:rum_extract_tsvector_internal", "src/rumget.c:collectMatchBitmap", "src/rumget.c:entryGetItem", "src/rumscan.c:rumFillScanKey"]}
{"id": "C58", "title": "Conditions of different kinds on the columns of one index combine", "statement": "In an index on scalar, array and tsvector columns, created on a table with any rows and followed by any number of insertions, a search by any number of conditions of all kinds (<, <=, =, >=, > on scalars; &&, @>, <@, =, % on arrays; @@ on documents), several per column or none, returns every row for which all are true, no row twice, and no other row unless the executor is told to recheck it; if no condition leaves anything to recheck, nothing is rechecked. Scope of the single conditions as in C55 to C57.", "quantifier": "every schema with columns of these kinds in any order, every table, every number and mix of conditions, every page layout", "why_tests_cant": "The answer depends on the interplay of search modes, hidden entries and void queries of all conditions, over any history of the index.", "anchors": ["src/rumscan.c:rumNewScanKey", "src/rumscan.c:initScanKey", "src/rumscan.c:rumFillScanKey", "src/rumget.c:scanGetItemRegular", "src/rumget.c:startScan"]}
{"id": "C59", "title": "Relevance is computed from exactly the minimal extents", "statement": "For a query built from words and prefixes with AND and OR (no lexeme both as word and as prefix) and a document all of whose words have positions, rum_ts_score is computed from exactly the minimal parts of the document that satisfy the query, each counted once: the rank of an extent is the harmonic mean of the weights of its words, times the number of operands in it, divided by one plus the number of other words between its ends; extents with the same hash are added with the k-th divided by k squared; the score is the sum over the hashes.", "quantifier": "every document and query of that kind, of any size, every floating-point arithmetic", "why_tests_cant": "The number and places of extents depend on the whole document; it must hold for all documents and query trees.", "anchors": ["src/rum_ts_utils.c:Cover", "src/rum_ts_utils.c:calc_score_docr", "src/rum_ts_utils.c:get_docrep", "src/rum_ts_utils.c:calc_score"]}
{"id": "C60", "title": "Direction and starting point of ordered scans", "statement": "If a query on an index with order_by_attach contains a directed distance (attached <=| v or attached |=> v) in ORDER BY, every WHERE condition on the column the attached one is added to is read in that direction starting from v, and every condition on other columns is read forward from the beginning; without a directed distance everything is read forward from the beginning. Queries are rejected because of directions only if ORDER BY has two directed distances on the attached column.", "quantifier": "all index configurations, all WHERE and ORDER BY lists, all results of extractQuery", "why_tests_cant": "the combinations of conditions, orderings and columns are unbounded", "anchors": ["src/rumscan.c:fillMarkAddInfo", "src/rumscan.c:adjustScanDirection", "src/rumscan.c:lookupScanDirection", "src/rumscan.c:rumNewScanKey"]}
{"id": "C61", "title": "VACUUM of a posting tree does not disturb concurrent scans and insertions", "statement": "While VACUUM cleans a posting tree and deletes its empty pages, any number of backends may insert rows one at a time and scan the tree page by page. A page-by-page scan sees every item present when it started unless a VACUUM running or begun meanwhile was told its row is dead, and nothing that was neither present nor being inserted. No backend ever comes to a deleted page or to a page of another kind, no insertion fails, a successful insertion is found unless the row was reported dead meanwhile, when VACUUM is done exactly the dead rows are gone, and there is no deadlock.", "quantifier": "every history of the tree (built, inserted into, vacuumed, no crash), any number of backends, every interleaving of page visits and VACUUM log records allowed by the locks and pins, any number of VACUUMs", "why_tests_cant": "the number of interleavings of page visits, splits, page deletions is unbounded and the wrong ones need exact timing", "anchors": ["src/rumvacuum.c:rumVacuumPostingTreeLeaves", "src/rumvacuum.c:rumDeletePage", "src/rumvacuum.c:rumScanToDelete", "src/rumbtree.c:rumStep", "src/rumget.c:scanPostingTree"]}
{"id": "C62", "title": "Cursors under VACUUM deliver every live item", "statement": "A scan item by item (entryGetNextItem) among concurrent insertions and VACUUMs delivers, in order, every item that was in the tree when it started unless a VACUUM was told meanwhile that the row is dead, and nothing that was neither in the tree nor being inserted.", "quantifier": "every history of the tree without a crash, every interleaving of page visits and VACUUM log records allowed by the locks and pins", "why_tests_cant": "the number of interleavings is unbounded", "anchors": ["src/rumget.c:entryGetNextItem", "src/rumget.c:startScanEntry", "src/rumvacuum.c:rumVacuumPostingTreeLeaves", "src/rumvacuum.c:rumDeletePage"]}
{"id": "C63", "title": "Rows inserted and searched by many backends at the same time", "statement": "Any number of backends insert rows into the index and search it for keys concurrently (no VACUUM meanwhile); insertions may be cancelled at any page boundary. A search that has ended (page by page, or item by item where the additional info needs no alignment padding) has delivered, in order, every row containing the key whose insertion had ended before the search began, and only rows containing the key whose insertion had begun, with their additional info. A lookup at any moment finds every row whose insertion has ended. If no insertion is cancelled, none fails, somebody can always go on, and when all have ended the index holds exactly the entries of all rows.", "quantifier": "every index with any columns and operator classes, every starting state reached by CREATE INDEX, insertions, VACUUMs and concurrent phases, every set of rows the index can take, every interleaving of page visits allowed by the page locks, every point of cancellation", "why_tests_cant": "the number of interleavings of page visits in the entry tree and the posting trees, of page splits and of list-to-tree conversions is unbounded", "anchors": ["src/ruminsert.c:rumEntryInsert", "src/ruminsert.c:rumHeapTupleInsert", "src/ruminsert.c:addItemPointersToLeafTuple", "src/ruminsert.c:createPostingTree", "src/rumbtree.c:rumInsertValue", "src/rumbtree.c:rumFindLeafPage", "src/rumget.c:startScanEntry", "src/rumget.c:scanPostingTree", "src/rumdatapage.c:rumInsertItemPointers"]}
{"id": "C64", "title": "VACUUM of the whole index among insertions and searches", "statement": "VACUUM runs over the index (entry tree and posting trees) while any number of backends insert rows and search for keys page by page. A search that has ended has delivered every row containing the key whose insertion had ended before the search began and which no VACUUM was told is dead meanwhile, and nothing but rows containing the key, with their additional info, that were in the table, were being inserted or were being removed by the VACUUM then running. At every moment a lookup finds every row of the table that is not still being inserted and nothing but rows of the table and dead rows the running VACUUM has not come to; when VACUUM has ended no dead row is found. When nobody is at work the index holds exactly the entries of the rows of the table. No insertion fails, VACUUM never ends in an error, and somebody can always go on.", "quantifier": "every index with any columns and operator classes, every starting state reached by CREATE INDEX, insertions, VACUUMs and concurrent phases, every set of rows the index can take, every set of dead rows, every interleaving of page visits and VACUUM steps allowed by page locks and pins", "why_tests_cant": "the number of interleavings of page visits with the steps of VACUUM, of splits, list-to-tree conversions and page deletions is unbounded", "anchors": ["src/rumvacuum.c:rumbulkdelete", "src/rumvacuum.c:rumVacuumEntryPage", "src/rumvacuum.c:rumVacuumPostingTree", "src/rumvacuum.c:rumVacuumPostingTreeLeaves", "src/rumvacuum.c:rumDeletePage", "src/ruminsert.c:rumEntryInsert", "src/rumget.c:startScanEntry", "src/rumget.c:scanPostingTree"]}
{"id": "C65", "title": "Index searches item by item under VACUUM", "statement": "A search of the whole index for a key, read item by item, among concurrent insertions and VACUUMs delivers, in order, every row containing the key whose insertion had ended before the search began and which no VACUUM was told is dead meanwhile, and nothing but rows containing the key.", "quantifier": "as C64", "why_tests_cant": "the number of interleavings is unbounded", "anchors": ["src/rumget.c:startScanEntry", "src/rumget.c:entryGetNextItem", "src/rumvacuum.c:rumbulkdelete", "src/rumvacuum.c:rumDeletePage"]}
{"id": "C66", "title": "Queries are exact for what their snapshot sees while others insert", "statement": "A query with any number of conditions (exact keys, columns of one order) searches the entries of its conditions while any number of backends insert rows and search. Every row whose insertion had ended when the query began is returned if and only if all conditions accept it, the consistency functions being told the truth about the row, with exactly the recheck flag they ask for; rows come out in order, each once; nothing is returned but pointers of rows whose insertion had begun.", "quantifier": "every index and history as in C63, every query, every interleaving of the query's page visits with those of all other backends, cancellations included", "why_tests_cant": "the number of interleavings is unbounded; a wrong interplay shows only in rare schedules", "anchors": ["src/rumget.c:startScanEntry", "src/rumget.c:entryGetItem", "src/rumget.c:keyGetItem", "src/rumget.c:scanGetItemRegular", "src/ruminsert.c:rumEntryInsert", "src/rumbtree.c:rumInsertValue"]}
{"id": "C67", "title": "Queries are exact for what their snapshot sees while VACUUM runs", "statement": "As C66, while VACUUM runs too: every row of the table whose insertion had ended when the query began and which no VACUUM is told is dead before the query has ended is returned if and only if all conditions accept it; rows removed meanwhile, and new rows that use their row pointers, do no harm to the answer for other rows.", "quantifier": "every index and history as in C64, every query, every interleaving", "why_tests_cant": "the number of interleavings is unbounded", "anchors": ["src/rumget.c:startScanEntry", "src/rumget.c:entryGetNextItem", "src/rumget.c:scanGetItemRegular", "src/rumvacuum.c:rumbulkdelete", "src/rumvacuum.c:rumDeletePage"]}
{"id": "C68", "title": "Inverted search over a table of stored queries", "statement": "With an index using rum_tsquery_ops on a table of stored queries, a search with a document (or several, one per column) ends and returns each row whose queries match the document exactly once, and no other row, with nothing left to the executor to check.", "quantifier": "every table history (rows present at CREATE INDEX, later insertions, VACUUMs), every stored query of words, NOT, AND, OR, every document", "why_tests_cant": "the paths of a word through a query, their encoding and the counters of the consistency function range over all query trees; rows over all histories", "anchors": ["src/rumtsquery.c:ruminv_extract_tsquery", "src/rumtsquery.c:ruminv_extract_tsvector", "src/rumtsquery.c:ruminv_tsvector_consistent", "src/rumutil.c:rumExtractEntries", "src/rumget.c:scanGetItemRegular"]}
{"id": "C69", "title": "Listing the leaf pages of a posting tree shows exactly the rows of its key", "statement": "rum_leaf_data_page_items_info called on the leaf pages of the posting tree of a key, from the leftmost along the right links, returns for each page its high key and then its items in order, none beyond the high key; all items together are exactly the rows of the table that contain the key, each once, with their additional info.", "quantifier": "every history of insertions and VACUUMs, every key with a posting tree, every leaf page", "why_tests_cant": "page layouts range over all histories; the search for the owner of a page depends on the height of the tree", "anchors": ["src/rum_debug_funcs.c:rum_page_items_info", "src/rum_debug_funcs.c:data_page_get_next_result", "src/rum_debug_funcs.c:find_page_in_posting_tree", "src/rum_debug_funcs.c:find_attnum_posting_tree_key"]}
{"id": "C70", "title": "Listing the leaf pages of the entry tree shows every key with its rows", "statement": "rum_leaf_entry_page_items_info called on the leaf pages of the entry tree returns every key of the index that has rows, in order, each with exactly the rows of the table that contain it, or with the root of its posting tree.", "quantifier": "every history of insertions and VACUUMs, every leaf page of the entry tree", "why_tests_cant": "the position is kept over calls in several counters; posting lists have any length, also none", "anchors": ["src/rum_debug_funcs.c:entry_leaf_page_get_next_result", "src/rum_debug_funcs.c:get_entry_leaf_posting_list_result", "src/rum_debug_funcs.c:prepare_new_entry_leaf_posting_list"]}
{"id": "C71", "title": "Word positions are shown in full", "statement": "The positions stored with an item are shown in order with the letters of their weights (none for D), separated by commas; the memory for the text is never exceeded.", "quantifier": "every list of positions of any length, any weights", "why_tests_cant": "the text buffer grows in steps; every sum of lengths matters at the boundary", "anchors": ["src/rum_debug_funcs.c:get_positions_to_text_datum", "src/rum_debug_funcs.c:pos_get_weight"]}
{"id": "C72", "title": "A posting tree can be explored page by page", "statement": "Every page but the root of the posting tree of a key appears as a child in the listing of an interior page of the tree by rum_internal_data_page_items_info, and every child listed is a page of the tree.", "quantifier": "every history of insertions and VACUUMs, every key with a posting tree, every page of the tree", "why_tests_cant": "splits and page deletions of all histories shape the tree", "anchors": ["src/rum_debug_funcs.c:data_page_get_next_result", "src/rumbtree.c:rumInsertValue", "src/rumvacuum.c:rumDeletePage"]}
{"id": "C73", "title": "Tuples of the entry tree read back unchanged", "statement": "The bytes written for an index entry (column number, key or null category, and the row list or the root of its posting tree) read back as the same column, category, key and rows, on leaf pages and as separators on interior pages, whether an insertion or VACUUM formed them; the size recorded in the entry is the length of its bytes, and an entry that would be too long for a page is refused, not truncated.", "quantifier": "every key of every column and category, every list of rows, every posting tree root, single- and multicolumn indexes, any number of separator levels", "why_tests_cant": "alignment, null bitmap and the category byte at the end of the tuple interact with every key and list length", "anchors": ["src/ruminsert.c:RumFormTuple", "src/rumvacuum.c:RumFormTuple", "src/rumentrypage.c:RumFormInteriorTuple", "src/rum.h:RumSetNullCategory", "src/rumutil.c:rumtuple_get_key", "src/rumutil.c:rumtuple_get_attrnum"]}
{"id": "C74", "title": "Range searches while others insert and VACUUM runs", "statement": "A prefix, range or whole-index search of a bitmap scan, running while any other backends insert and search and VACUUM runs, delivers every row with a wanted key that was in the table and completely inserted when the search began and not removed by a VACUUM begun meanwhile; it delivers only rows with a wanted key, with the additional information of that key; it does not fail, and does not block the others for ever.", "quantifier": "every history of the index, every interleaving of page visits of any number of backends and VACUUM, every column and every kind of partial match", "why_tests_cant": "the search unlocks its page while it reads a posting tree and between pages; what happens to the page meanwhile depends on the schedule", "anchors": ["src/rumget.c:collectMatchBitmap", "src/rumget.c:scanPostingTree", "src/rumget.c:startScanEntry", "src/rumbtree.c:rumStep"]}
{"id": "C75", "title": "Queries with conditions of any kind are exact while VACUUM runs", "statement": "As C67, for queries whose conditions search for single keys, for all keys with a prefix or in a range, or for all keys, in any mix: while other backends insert and search and VACUUM runs, every row of the table whose insertion had ended when the query began and which no VACUUM is told is dead before the query has ended is returned if and only if all conditions accept it; each consistency function is told of such a row, for each entry, whether it has a wanted key, and the additional information of all wanted keys it has, joined. Rows come out in order, each once; no row pointer comes out but of rows that were in the table or came meanwhile.", "quantifier": "every index and history as in C74, every query, every interleaving of page visits", "why_tests_cant": "the entries are read at different moments of a history that goes on; the number of interleavings is unbounded", "anchors": ["src/rumget.c:startScanEntry", "src/rumget.c:collectMatchBitmap", "src/rumget.c:entryGetItem", "src/rumget.c:scanGetItemRegular", "src/rumvacuum.c:rumbulkdelete"]}
{"id": "C76", "title": "The sort in memory sorts", "statement": "Sorting tuples that fit into memory (ORDER BY rows, items of a posting list in the order of additional information) returns each tuple as often as it was put in, in an order RUM's comparison accepts; nothing outside the array of tuples is written, and the sort never needs more than log2 n nested calls, whatever the tuples are.", "quantifier": "every number of tuples, every content of the array, every comparison that is a total preorder", "why_tests_cant": "partition bugs and deep recursion show only for particular arrangements of the input, of which there are n!", "anchors": ["src/qsort_tuple.c:qsort_tuple", "src/qsort_tuple.c:med3_tuple", "src/tuplesort12.c:tuplesort_sort_memtuples"]}
{"id": "C77", "title": "The sort on tapes sorts", "statement": "A sort whose tuples do not fit in work_mem (portions written to tapes and merged) ends and returns each tuple as often as it was put in, in an order RUM's comparison accepts, whatever the tuples are and wherever the limits of memory divide them, and however many tapes there are; the merge never needs more room than one tuple per run.", "quantifier": "every input, every division into portions of any number and sizes, every number of tapes from three on (version 15: two), every comparison that is a total preorder, results fetched from tape or merged while fetched; the polyphase merge of versions 10 to 14 and the balanced merge of version 15", "why_tests_cant": "the distribution of runs over tapes and the dummy runs depend on the number of portions in a way (generalized Fibonacci numbers) that a few sizes do not cover", "anchors": ["src/tuplesort12.c:mergeruns", "src/tuplesort12.c:selectnewtape", "src/tuplesort12.c:mergeonerun", "src/tuplesort12.c:beginmerge", "src/tuplesort12.c:tuplesort_heap_replace_top", "src/tuplesort12.c:dumptuples", "src/tuplesort15.c:mergeruns", "src/tuplesort15.c:selectnewtape", "src/tuplesort15.c:mergeonerun", "src/tuplesort15.c:dumptuples"]}
{"id": "C78", "title": "A document has a finite distance exactly if it matches", "statement": "For a query built from words and prefixes with AND and OR (no lexeme both as word and as prefix) and a document all of whose words have positions: with every normalization method rum_ts_score is positive if the document satisfies the query and 0 if it does not, and rum_ts_distance is infinite exactly for the documents that do not.", "quantifier": "every document and query of that kind, every method, every arithmetic in which signs come out right", "why_tests_cant": "Documents, query trees and combinations of methods are unbounded.", "anchors": ["src/rum_ts_utils.c:calc_score", "src/rum_ts_utils.c:calc_score_docr", "src/rum_ts_utils.c:rum_ts_distance_ttf", "src/rum_ts_utils.c:rum_ts_score_ttf"]}
{"id": "C79", "title": "Normalization 32 keeps scores below 1", "statement": "rum_ts_score with method 32 (divide the rank by itself plus 1), alone or with other methods, is at least 0 and less than 1.", "quantifier": "every document and AND/OR query over words with positions, every method that contains 32", "why_tests_cant": "It must hold for all documents, queries and combinations of methods.", "anchors": ["src/rum_ts_utils.c:calc_score", "src/rum_ts_utils.c:calc_score_docr"]}
{"id": "C80", "title": "Each normalization method does what it stands for", "statement": "For a query built from words and prefixes with AND and OR (no lexeme both as word and as prefix) and a document all of whose words have positions, in exact arithmetic: the score with a method is the score without one, multiplied (method 4) by the mean inverse distance of the middles of consecutive minimal extents if there are two at different places, then (32) divided by itself plus 1, then divided (1) by the logarithm of one plus the number of positions, (2) by the number of positions, (8) by the number of words, (16) by the binary logarithm of one plus the number of words; bits combine.", "quantifier": "every document and query of that kind, every method", "why_tests_cant": "Documents, query trees and combinations of methods are unbounded.", "anchors": ["src/rum_ts_utils.c:calc_score", "src/rum_ts_utils.c:calc_score_docr", "src/rum_ts_utils.c:count_length"]}
{"id": "C81", "title": "Prefix, range and whole-index searches see the additional information of the row", "statement": "When a search that collects all rows of several keys (prefix, range, whole index) reads a page of a posting tree, the operator class is later given, for each row, the additional information stored with it, whatever other backends do to the page in between.", "quantifier": "every posting list, every type of additional information, every content of the buffer at the time of use", "why_tests_cant": "It depends on what other backends do to the page between reading and use.", "anchors": ["src/rumget.c:scanPostingTree", "src/rum.h:rumDataPageLeafRead", "src/rumsort.c:copytup_rumitem"]}
{"id": "C82", "title": "Rows the sort writes to disk are read back unchanged", "statement": "A sorted run that the sort of an ORDER BY or range search writes to a temporary file is read back as the same tuples in the same order, up to its end mark, whatever follows it on the tape; each row keeps its row pointer, recheck flag and distances.", "quantifier": "every run of every length, every number of ORDER BY keys, with or without random access", "why_tests_cant": "Runs are unbounded and the bytes of rows arbitrary.", "anchors": ["src/rumsort.c:writetup_rum_internal", "src/rumsort.c:readtup_rum_internal", "src/tuplesort13.c:getlen", "src/tuplesort13.c:markrunend"]}
{"id": "C83", "title": "The index orders no matching document at infinity", "statement": "For an index of tsvector with positions and a query built from words with AND and OR, ordering by column <=> query gives a row whose words all have positions a finite distance exactly if its document satisfies the query, whether words are repeated in the query or not and whatever the memory addresses.", "quantifier": "every document and query of that kind, every arithmetic in which signs come out right, every address of the query in memory", "why_tests_cant": "Documents and query trees are unbounded; the score depends on addresses a test does not control.", "anchors": ["src/rum_ts_utils.c:rum_tsquery_distance", "src/rum_ts_utils.c:calc_score_addinfo", "src/rum_ts_utils.c:get_docrep_addinfo", "src/rum_ts_utils.c:calc_score_docr"]}
{"id": "C84", "title": "The entry tree can be explored page by page", "statement": "Every page but the root of the entry tree appears as a child in the listing of an interior page by rum_internal_entry_page_items_info, every child listed is a page of the tree, and the keys listed bound the keys on the leaf pages they are listed with: none is beyond the key of its row, all are beyond the keys of earlier rows.", "quantifier": "every history of insertions and VACUUMs, every page of the entry tree", "why_tests_cant": "splits of all histories shape the tree; the last row of the rightmost page is a special case", "anchors": ["src/rum_debug_funcs.c:entry_internal_page_get_next_result", "src/rum_debug_funcs.c:get_entry_index_tuple_values", "src/rumbtree.c:rumInsertValue"]}
