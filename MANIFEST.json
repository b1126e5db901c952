{"claims": [
 {"property": "C01", "status": "proved", "theorems": ["Rum.Props.C01_item_pointer_roundtrip", "Rum.Props.C01_prefix_free"], "note": ""},
 {"property": "C02", "status": "proved", "theorems": ["Rum.Props.C02_posting_list_roundtrip", "Rum.Props.C02_stored_same_value"], "note": ""},
 {"property": "C03", "status": "proved", "theorems": ["Rum.Props.C03_item_order_total", "Rum.Props.C03_item_order_eq", "Rum.Props.C03_iptr_order", "Rum.Props.C03_item_order_null_first"], "note": ""},
 {"property": "C04", "status": "proved", "theorems": ["Rum.Props.C04_key_order_total", "Rum.Props.C04_key_order_shape"], "note": ""},
 {"property": "C05", "status": "proved", "theorems": ["Rum.Props.C05_merge_is_union", "Rum.Props.C05_merge_rows"], "note": ""},
 {"property": "C06", "status": "proved", "theorems": ["Rum.Props.C06_directory_lookup_exact"], "note": ""},
 {"property": "C07", "status": "partial", "theorems": ["Rum.Props.C07_place_exact", "Rum.Props.C07_never_overfilled", "Rum.Props.C07_never_overfilled_append", "Rum.Props.C07_never_overfilled_single", "Rum.Props.C07_overfilled_align8"], "note": "Content of the page after a batch insertion is exactly the merge, for all pages and batches. The no-overfill half holds for unaligned additional information (any batch), appended batches (alignment up to 8) and single items (alignment up to 4); for 8-byte-aligned by-reference types the code can overfill, C07_overfilled_align8 is a concrete witness."},
 {"property": "C08", "status": "partial", "theorems": ["Rum.Props.C08_split_exact", "Rum.Props.C08_right_bound_partial", "Rum.Props.C08_right_bound_violated", "Rum.Props.C08_fits", "Rum.Props.C08_overfilled_large_items", "Rum.Props.C08_fits_single"], "note": "Content, order and separation of the two pages proved for all pages and batches; the old right bound is kept only if the consumed items respect it: the code's check is dead (C08_right_bound_violated, concrete). Both pages fit when items are at most a third of a page and the additional info is unpadded (C08_fits, any batch) or aligned to at most 4 bytes (C08_fits_single, one item at a time); larger items overfill (C08_overfilled_large_items)."},
 {"property": "C09", "status": "partial", "theorems": ["Rum.Props.PostingTree.C09_posting_tree_exact"], "note": "Proved for all histories, depths and page sizes when three items fit on a page, for any batches if no additional info needs alignment padding (by-value types, none, varlenas up to 126 bytes), and with padding (alignment up to 4) if items come one at a time, as row insertions deliver them. Missing: batches (index build) of padded items, and types aligned to 8 bytes passed by reference, which can overfill pages (see C07_overfilled_align8)."},
 {"property": "C10", "status": "proved", "theorems": ["Rum.Props.PostingTree.C10_every_record_searchable"], "note": "Every reachable state (creation, insertions, crashes after any record) and every record of the next insertion; same scope of items as C09."},
 {"property": "C11", "status": "partial", "theorems": ["Rum.Props.PostingTree.C11_item_stored_partial", "Rum.Props.PostingTree.C11_violated"], "note": "C11 is false of the code: after a crash between the split of a leaf and the insertion of its downlink, the next split of the orphaned page ends with 'Lost path' (C11_violated, concrete reachable state). What holds: the item itself is stored and searchable, and without a crash insertions never fail."},
 {"property": "C12", "status": "partial", "theorems": ["Rum.Props.C12_vacuum_posting_list", "Rum.Props.VacuumTree.C12_tree_exact", "Rum.Props.VacuumTree.C14_cleaning_after_crash_partial", "Rum.Props.VacuumTree.C12_violated"], "note": "Proved for posting lists and, for all crash-free histories, for posting trees. False after a crash inside a page split: VACUUM misses the orphaned right page (C12_violated, reachable state); there the partial theorem shows the cleaning loses no live item."},
 {"property": "C13", "status": "proved", "theorems": ["Rum.Props.C13_vacuum_never_grows"], "note": ""},
 {"property": "C14", "status": "partial", "theorems": ["Rum.Props.VacuumTree.C14_tree_records", "Rum.Props.VacuumTree.C12_tree_exact", "Rum.Props.VacuumTree.C14_cleaning_after_crash_partial", "Rum.Props.VacuumTree.C14_violated"], "note": "Proved at every log record of VACUUM for every crash-free history (and lookups exact after it, C12_tree_exact). False after a crash inside a page split: deleting the left page of the incomplete split makes the right page's rows unfindable (C14_violated)."},
 {"property": "C15", "status": "partial", "theorems": ["Rum.Props.Index.C15_index_is_map", "Rum.Props.Index.C15_every_record", "Rum.Props.Index.C15_key_too_big", "Rum.Props.Index.C15_rows"], "note": "Proved for all histories of insertions (also at every log record, crashes included, and for whole rows). Scope: rows inserted one by one with additional info of alignment up to 4 and at most a third of a page, or batches without alignment padding. With VACUUM: C49."},
 {"property": "C16", "status": "proved", "theorems": ["Rum.Props.C16_leaf_split", "Rum.Props.C16_interior_split", "Rum.Props.GoodSplit.separates"], "note": ""},
 {"property": "C17", "status": "proved", "theorems": ["Rum.Props.C17_leaf", "Rum.Props.C17_interior", "Rum.Props.C17_interior_data", "Rum.Props.C17_find_child"], "note": ""},
 {"property": "C18", "status": "proved", "theorems": ["Rum.Props.C18_extract"], "note": ""},
 {"property": "C19", "status": "partial", "theorems": ["Rum.Props.Bulk.C19_accumulator", "Rum.Props.Bulk.C19_each_entry_once", "Rum.Props.Bulk.C19_build_partial", "Rum.Props.Bulk.C19_violated"], "note": "Proved for every table, heap scan order and placement of flushes for indexes not ordered by additional info, and for those that are when the heap scan delivers rows in TID order; otherwise the code is wrong (C19_violated: lists of the other columns are stored unsorted). Same scope of additional info as C15 (no alignment padding)."},
 {"property": "C20", "status": "partial", "theorems": ["Rum.Props.ScanRegular.C20_regular_scan", "Rum.Props.ScanRegular.C20_mixed_scan_partial", "Rum.Props.ScanRegular.C20_order_by_attach_loses_rows", "Rum.Props.ScanRegular.C20_order_by_attach_violated", "Rum.Props.ScanRegular.C20_mixed_recheck_violated"], "note": "Full contract (ends, each row once, in order, exactly the matching rows, exact recheck flag) proved for every scan whose keys share one order. Mixed-order scans: rows and order proved when both kinds have a filter key; recheck of the other columns' keys is dropped (violated), and with order_by_attach a regular scan with ORDER BY on another column and no filter there returns nothing (violated, bug in isScanWithAltOrderKeys)."},
 {"property": "C21", "status": "partial", "theorems": ["Rum.Props.FastScan.C21_fast_scan_partial", "Rum.Props.FastScan.C21_same_as_regular_partial", "Rum.Props.FastScan.C21_two_keys_violated", "Rum.Props.FastScan.C21_two_columns_violated"], "note": "One filter key plus any number of ORDER BY keys on one column: proved in full. With several filter keys the property is false of the code; two theorems exhibit queries that lose rows."},
 {"property": "C22", "status": "partial", "theorems": ["Rum.Props.C22_forward", "Rum.Props.C22_backward_partial", "Rum.Props.C22_backward_miss_violated", "Rum.Props.C22_backward_invalid_violated"], "note": "Forward: full. Backward: the property is false of the code; C22_backward_partial says exactly what holds, the two violation theorems exhibit a missed item and an out-of-bounds read."},
 {"property": "C23", "status": "partial", "theorems": ["Rum.Props.C23_forward_partial", "Rum.Props.C23_backward_partial", "Rum.Props.C23_mark_forward_partial", "Rum.Props.C23_mark_backward_partial", "Rum.Props.C23_forward_empty_first_violated", "Rum.Props.C23_forward_empty_two_violated", "Rum.Props.C23_backward_three_violated", "Rum.Props.C23_backward_empty_violated", "Rum.Props.C23_mark_backward_violated", "Rum.Props.C23_mark_forward_violated"], "note": "Byte-level pages. The property as stated is false of the code in five ways, each with a witness; the partial theorems state the exact conditions under which every item comes out once in order."},
 {"property": "C24", "status": "partial", "theorems": ["Rum.Props.Natural.C24_each_row_once_partial", "Rum.Props.Natural.C24_nearest_first_partial", "Rum.Props.Natural.C24_left_violated", "Rum.Props.Natural.C24_right_violated", "Rum.Props.Natural.C24_prefix_violated", "Rum.Props.Natural.C24_prefix_rows_violated", "Rum.Props.Sort.C36_sorted", "Rum.Props.Sort.C36_each_row_once"], "note": "One-sided distances: every matching row exactly once over the two passes, with recheck flag, any number of keys and entries, posting lists without restriction, posting trees as far as C23 holds; nearest first if no matching row is at exactly the query value. The code violates the order for rows at the query value (both distances; witnesses), and for prefixes both the order and that each row comes once (witnesses). The two-sided distance is sorted: C36. Scans mixing columns are not covered."},
 {"property": "C25", "status": "proved", "theorems": ["Rum.Props.C25_search_agrees", "Rum.Props.C25_search_exact", "Rum.Props.C25_timestamp_search_agrees"], "note": "Declarative semantics sem/Matches in Verif/TsQuery.lean. Hypothesis: largest position + total phrase distance < 2^14 (beyond it the position arithmetic wraps, in the same way as in PostgreSQL core's own operator)."},
 {"property": "C26", "status": "proved", "theorems": ["Rum.Props.C26_prefilter_never_loses"], "note": "TS_execute of PostgreSQL core (flags PHRASE_NO_POS|SKIP_NOT) is modelled by reading its documented behaviour; the callback is the repo's."},
 {"property": "C27", "status": "proved", "theorems": ["Rum.Props.C27_positions_roundtrip"], "note": ""},
 {"property": "C28", "status": "proved", "theorems": ["Rum.Props.C28_join_is_union"], "note": ""},
 {"property": "C29", "status": "partial", "theorems": ["Rum.Props.C29_inverted_search_sound", "Rum.Props.C29_inverted_search_exact_partial", "Rum.Props.C29_inverted_search_violated", "Rum.Props.C29_empty_document_violated", "Rum.Props.C29_node_overflow", "Rum.Props.C29_weights_violated"], "note": "The code violates the full property (nested all-negative operators, empty document, >256 operators: witnesses proved); soundness proved for all accepted queries, exactness for queries without hidden negative operators."},
 {"property": "C30", "status": "proved", "theorems": ["Rum.Props.C30_varbyte_roundtrip", "Rum.Props.C30_varbyte_sequence", "Rum.Props.C30_varbyte_bytes"], "note": ""},
 {"property": "C31", "status": "partial", "theorems": ["Rum.Props.C31_array_search_agrees", "Rum.Props.C31_similarity_exact_partial", "Rum.Props.C31_similarity_violated"], "note": "&&, @>, <@, = fully proved. For % the code violates the property at threshold 0 (allowed by the GUC): witness proved; exact for every threshold that zero similarity does not reach. float8 arithmetic is abstract."},
 {"property": "C32", "status": "partial", "theorems": ["Rum.Props.C32_array_distance_agrees_partial", "Rum.Props.C32_empty_array_violated"], "note": "Equal for non-empty arrays (float8 abstract; 0/x = 0 assumed); for an empty array the code violates it (operator 0, index infinity), witness proved."},
 {"property": "C33", "status": "partial", "theorems": ["Rum.Props.C33_scalar_range_exact", "Rum.Props.C33_char_violated"], "note": "Exact for every type whose start value is leftmost (C34); violated for \"char\" (witness proved). Missing: \"char\" and out-of-range intervals, where the code is wrong."},
 {"property": "C34", "status": "partial", "theorems": ["Rum.Props.C34_leftmost_integers", "Rum.Props.C34_leftmost_float", "Rum.Props.C34_leftmost_numeric", "Rum.Props.C34_leftmost_bytes", "Rum.Props.C34_leftmost_bit", "Rum.Props.C34_leftmost_timetz", "Rum.Props.C34_leftmost_inet", "Rum.Props.C34_char_violated", "Rum.Props.C34_interval_violated", "Rum.Props.C34_leftmost_interval_partial", "Rum.Props.C34_leftmost_char_partial"], "note": "Proved for all types but \"char\" and interval, for which the code is wrong (witnesses proved) and the part that holds is proved."},
 {"property": "C35", "status": "partial", "theorems": ["Rum.Props.C35_exact_distances", "Rum.Props.C35_int8_distances", "Rum.Props.C35_index_uses_operator", "Rum.Props.C35_sides", "Rum.Props.C35_timestamp_distance_partial", "Rum.Props.C35_timestamp_violated", "Rum.Props.C35_infinity_violated"], "note": "int2/int4/oid exact; int8/money up to float rounding; timestamps up to int64 overflow (violation proved); float4/float8 subtraction not modelled."},
 {"property": "C36", "status": "partial", "theorems": ["Rum.Props.Sort.C36_comparator", "Rum.Props.Sort.C36_comparator_transitive", "Rum.Props.Sort.C36_sorted", "Rum.Props.Sort.C36_sort_exists", "Rum.Props.Sort.C36_all_rows", "Rum.Props.Sort.C36_each_row_once", "Rum.Props.Sort.C36_item_sort_partial", "Rum.Props.Sort.C36_item_sort_transitive", "Rum.Props.Sort.C36_item_sort_violated", "Rum.Props.OrderSort.C77_tuplesort"], "note": "ORDER BY sort fully proved; the item sort agrees with index order except for NULL additional info, where the code is wrong (violated theorem). That RUM's copies of tuplesort sort is C76 and C77, composed in C77_tuplesort."},
 {"property": "C37", "status": "proved", "theorems": ["Rum.Props.Options.C37_accepts_iff", "Rum.Props.Options.C37_columns_in_range"], "note": "Acceptance is equivalent to the documented rules, with the resulting layout."},
 {"property": "C38", "status": "partial", "theorems": ["Rum.Props.ScanKeys.C38_void", "Rum.Props.ScanKeys.C38_nothing_lost", "Rum.Props.ScanKeys.C38_meaning_partial", "Rum.Props.ScanKeys.C38_null_order_violated", "Rum.Props.ScanKeys.C38_no_function_violated", "Rum.Props.ScanKeys.C38_or_query_violated"], "note": "Void exactly for NULL/empty default-mode WHERE operators; every operator kept exactly once with exactly its entries; meaning preserved if operators on the attached column are decided by the partial-match function on single-key queries. Without that law, and for NULL with ORDER BY on the same column, the code violates the property. Sharing of equal entries never happens in the code (the table is empty during setup)."},
 {"property": "C39", "status": "partial", "theorems": ["Rum.Props.TidBitmap.C39_never_misses", "Rum.Props.TidBitmap.C39_lossy", "Rum.Props.TidBitmap.C39_foreign_page", "Rum.Props.TidBitmap.C39_exact_partial", "Rum.Props.TidBitmap.C39_is_empty", "Rum.Props.TidBitmap.C39_recheck_violated", "Rum.Props.TidBitmap.C39_added_recheck_violated"], "note": "No added row is ever missed, recheck answers only on mentioned pages; answers without recheck exact unless an intersection met a lossy page, where the code is wrong (violated theorem)."},
 {"property": "C40", "status": "partial", "theorems": ["Rum.Props.Conc.C40_full_scan_complete", "Rum.Props.Conc.C40_cursor_complete_partial", "Rum.Props.Conc.C40_cursor_never_ends"], "note": "Scans that read the tree page by page (scanPostingTree) are complete under every interleaving. Cursors (entryGetNextItem) deliver everything if they come to an end, but they may loop forever after the root leaf was split: proved counterexample. With VACUUM running concurrently: C61, C62, C64, C65."},
 {"property": "C41", "status": "partial", "theorems": ["Rum.Props.Rank.C41_score_partial", "Rum.Props.Rank.C41_told", "Rum.Props.Rank.C41_phrase_violated", "Rum.Props.Rank.C41_repeated_violated", "Rum.Props.Rank.C41_no_position_violated", "Rum.Props.Rank.C41_hash_violated"], "note": "Proved: the score computed in the index from the stored positions equals the score computed from the document, for every float arithmetic, for queries of different words without prefix or phrase operators, words with positions, when the hashes of the covers tell the covers apart; C41_told links the view of the stored entries (C50) to the document. The code violates the full property, with witnesses: phrase queries (the index score is always 0), repeated words, words without positions, collisions of the cover hash. Float arithmetic is abstract."},
 {"property": "C42", "status": "proved", "theorems": ["Rum.Props.Validate.C42_required_present", "Rum.Props.Validate.C42_signatures", "Rum.Props.Validate.C42_operators"], "note": "PostgreSQL's catalog helpers modelled from amvalidate.c."},
 {"property": "C43", "status": "partial", "theorems": ["Rum.Props.ScanRegular.C43_distance_partial", "Rum.Props.ScanRegular.C43_recheck_violated", "Rum.Props.ScanRegular.C43_mixed_violated"], "note": "Proved for forward same-order scans and rows returned without recheck; the claim is false in the code for rows returned with recheck (catch-up loop is left early) and in mixed-order scans."},
 {"property": "C44", "status": "proved", "theorems": ["Rum.Props.Conc.C44_concurrent_insertions"], "note": "Posting trees; concurrent VACUUM not modelled."},
 {"property": "C45", "status": "proved", "theorems": ["Rum.Props.Conc.C45_no_failure_no_deadlock"], "note": "Posting trees; concurrent VACUUM not modelled."},
 {"property": "C46", "status": "partial", "theorems": ["Rum.Props.BackScan.C46_no_split_partial", "Rum.Props.BackScan.C46_ends_partial", "Rum.Props.BackScan.C46_violated"], "note": "The code violates the full property: C46_violated exhibits a schedule in which a backward cursor misses a row because its left sibling is split between reading the left link and locking the page. Proved: in every run in which no page is split, whatever else others do, the scan delivers exactly in descending order, without duplicates, everything at or before the mark that was there (if its first page has anything at or before the mark or the mark itself is stored); and on a tree left alone it ends unless a leaf has exactly three items."},
 {"property": "C47", "status": "partial", "theorems": ["Rum.Props.FullScan.C47_full_scan_partial", "Rum.Props.FullScan.C47_vacuumed_violated", "Rum.Props.FullScan.C47_first_empty_violated", "Rum.Props.FullScan.C47_tree_violated", "Rum.Props.FullScan.C47_natural_violated"], "note": "Proved when every entry of the column has rows (no VACUUM-emptied entries), the ordering entries are posting lists and the result is sorted by distance. Each hypothesis is needed: the code violates the property without it (NULL list read, no rows, a row returned twice with two distances, natural order with duplicates)."},
 {"property": "C48", "status": "partial", "theorems": ["Rum.Props.OrderVals.C48_values_partial", "Rum.Props.OrderVals.C48_order_partial", "Rum.Props.OrderSort.C48_sorted_partial", "Rum.Props.OrderVals.C48_witness", "Rum.Props.OrderVals.C48_no_carrier_violated", "Rum.Props.OrderVals.C48_natural_violated", "Rum.Props.OrderVals.C48_two_values_violated", "Rum.Props.OrderVals.C48_both_violated", "Rum.Props.OrderVals.C48_null_violated"], "note": "Proved for every setup whose ORDER BY list is Plain (structure with four conditions). The full property is false of the code: each condition is shown necessary by a violation theorem. C48_order_partial holds for any correct sort; C48_sorted_partial has the sorts of the code (C76, C77), wherever memory ends."},
 {"property": "C49", "status": "partial", "theorems": ["Rum.Props.IndexVacuum.C49_lifetime_partial", "Rum.Props.IndexVacuum.C49_from_empty", "Rum.Props.IndexVacuum.C49_every_record"], "note": "Proved for every history of insertions and VACUUMs of an index created on an empty table, and on a table with rows within the scope of C19 (no alignment padding; TID order where additional info orders the items: otherwise false, C19_violated). Additional info of alignment up to 4 and at most a third of a page; no crash before a VACUUM (false after one: C12_violated, C14_violated); no concurrent process."},
 {"property": "C50", "status": "partial", "theorems": ["Rum.Props.Query.C50_query_partial", "Rum.Props.Query.C50_query_from_empty_partial", "Rum.Props.Query.C50_query_inserted_partial"], "note": "Proved end to end for conditions with at least one key and no partial match, without ordering operators. Scope: additional info of alignment up to 4; the conditions are all on columns ordered alike; fast scan with one condition (false with two: C21_two_keys_violated); after VACUUM the leftmost page of the posting trees read is not empty (else an empty list is read: C23_forward_empty_first_violated). No crash, no concurrent process."},
 {"property": "C51", "status": "partial", "theorems": ["Rum.Props.FullText.C51_fulltext_partial", "Rum.Props.FullText.C51_fulltext_inserted_partial", "Rum.Props.FullText.C51_prefix_violated"], "note": "Proved end to end for every query without prefix operands in which some word must occur, every history of documents in the scope of C50. False with a prefix and an exact operand of the same lexeme (a:* & !a): C51_prefix_violated. Prefix search and queries that need a full index scan: C57."},
 {"property": "C52", "status": "partial", "theorems": ["Rum.Props.FullText.C52_violated", "Rum.Props.FullText.C52_hash_collides", "Rum.Props.FullText.C51_fulltext_partial", "Rum.Props.FullText.C51_fulltext_inserted_partial"], "note": "The claim is false: for any two words with the same hash a search returns a row that does not match, without recheck, and another loses a row that matches; every hash function has such words. Proved where no word of the query collides with another word of the documents (the C51 theorems take any key function under NoCollision)."},
 {"property": "C53", "status": "partial", "theorems": ["Rum.Props.Collect.C53_query_partial", "Rum.Props.Collect.C53_query_from_empty_partial", "Rum.Props.Collect.C53_query_inserted_partial"], "note": "Whole way from table history to query result. Missing: mixed column kinds (C20_mixed_scan_partial), NULL in the attached column when items are ordered by it (C36_item_sort_violated), posting trees of exactly searched keys whose leftmost page VACUUM emptied (C23_forward_empty_first_violated), concurrent changes during the walk."},
 {"property": "C54", "status": "partial", "theorems": ["Rum.Props.Scalar.C54_comparisons_partial", "Rum.Props.Scalar.C54_comparisons_from_empty_partial"], "note": "Missing: what C53 misses (mixed column kinds, NULL in the attached column when items are ordered by it, = on a key whose posting tree's leftmost page VACUUM emptied); types whose leftmost value is not the least (C34_*_violated)."},
 {"property": "C55", "status": "proved", "theorems": ["Rum.Props.Plain.C55_ranges", "Rum.Props.Plain.C55_comparisons_inserted"], "note": "From the rows of the table to the rows returned. Assumed: qsort and tuplesort sort; keys' tuple sizes are multiples of 8 (index_form_tuple); the scan runs alone."},
 {"property": "C56", "status": "proved", "theorems": ["Rum.Props.ArraySearch.C56_array_search", "Rum.Props.ArraySearch.C56_arrays_partial"], "note": "C56_array_search is the property. C56_arrays_partial extends it to histories with VACUUM, missing posting trees whose leftmost page VACUUM emptied."},
 {"property": "C57", "status": "proved", "theorems": ["Rum.Props.TextTable.C57_text_search", "Rum.Props.TextSearch.C57_text_partial", "Rum.Props.TextTable.C57_mixed_violated", "Rum.Props.TextTable.C57_weights_violated"], "note": "C57_text_search is the property in the scope it states. C57_text_partial: any operator class (hashed words, attached columns) and VACUUM, minus what Covered excludes. The _violated theorems show why the scope excludes documents where a prefix stands for words with and without positions, and shared positions with different weights."},
 {"property": "C58", "status": "proved", "theorems": ["Rum.Props.MixedSearch.C58_mixed_search"], "note": "Any number and mix of conditions; CREATE INDEX on any table, then any insertions. Scope of single conditions as stated (that of C55-C57); no VACUUM, no attached column."},
 {"property": "C59", "status": "proved", "theorems": ["Rum.Props.RankCovers.C59_document", "Rum.Props.RankCovers.C59_score", "Rum.Props.RankCovers.C59_extents", "Rum.Props.RankCovers.C59_groups"], "note": "For AND/OR queries as stated; NOT and phrases are not in the statement. Floating-point operations abstract."},
 {"property": "C60", "status": "proved", "theorems": ["Rum.Props.ScanDirection.C60_directed", "Rum.Props.ScanDirection.C60_undirected", "Rum.Props.ScanDirection.C60_rejects", "Rum.Props.ScanDirection.C60_witness"], "note": "Over the model of rumNewScanKey; C60_directed is for scans that are not void and whose ORDER BY operators extract at least one key"},
 {"property": "C61", "status": "proved", "theorems": ["Rum.Props.VacConc.C61_scan_complete", "Rum.Props.VacConc.C61_tree", "Rum.Props.VacConc.C61_insertion_found", "Rum.Props.VacConc.C61_vacuum_exact", "Rum.Props.VacConc.C61_no_deadlock"], "note": "One posting tree; rows inserted one at a time; VACUUM records interleaved with page visits. Backends stopped only outside a split. Scans: leftmost descent, then right links (scanPostingTree). Not modelled: VACUUM cancelled or crashed midway, descents with a starting point (see DESIGN), reuse of deleted pages."},
 {"property": "C62", "status": "partial", "theorems": ["Rum.Props.VacConc.C62_cursor_complete_partial", "Rum.Props.VacConc.C62_violated"], "note": "Missing: a cursor that ended without any item may have missed live ones (first leaf emptied by VACUUM: C62_violated, a defect of the code); a cursor may never end (C40_cursor_never_ends)."},
 {"property": "C63", "status": "proved", "theorems": ["Rum.Props.IndexConc.C63_search", "Rum.Props.IndexConc.C63_all_rows_indexed", "Rum.Props.IndexConc.C63_no_deadlock", "Rum.Props.IndexConc.C63_any_moment"], "note": "Concurrent insertions of rows and searches on the whole index (entry tree and posting trees), cancellations included. Scope as stated: no VACUUM meanwhile; searches item by item only without alignment padding; that such a search ends is not claimed (C40_cursor_never_ends)."},
 {"property": "C64", "status": "proved", "theorems": ["Rum.Props.IndexVacConc.C64_search", "Rum.Props.IndexVacConc.C64_all_rows_indexed", "Rum.Props.IndexVacConc.C64_any_moment", "Rum.Props.IndexVacConc.C64_no_deadlock"], "note": "Whole index: entry tree and all posting trees, VACUUM interleaved page visit by page visit with row insertions and searches. Scope: one VACUUM at a time (the server guarantees it), no cancellation or crash midway, entry keys with encoded sizes that are multiples of 8, rows inserted one entry at a time (M.single)."},
 {"property": "C65", "status": "partial", "theorems": ["Rum.Props.IndexVacConc.C65_search_partial"], "note": "Missing: a search item by item that ended without any row may have missed live ones (first leaf of the posting tree emptied by VACUUM: VacConc.C62_violated, a defect of the code)."},
 {"property": "C66", "status": "proved", "theorems": ["Rum.Props.QueryConc.C66_query"], "note": "Whole-index queries among concurrent insertions and searches. Scope as stated: exact keys, regular scan, columns of one order; searches item by item only without alignment padding; every search read to its end."},
 {"property": "C67", "status": "partial", "theorems": ["Rum.Props.QueryConc.C67_query_partial"], "note": "Missing: searches that deliver nothing although a visible row has the key (VacConc.C62_violated, a defect of the code); with items ordered by an attached value, histories that use a row pointer again."},
 {"property": "C68", "status": "partial", "theorems": ["Rum.Props.InvSearch.C68_inverted_table_partial", "Rum.Props.InvSearch.C68_inverted_partial", "Rum.Props.InvSearch.C68_missed_violated", "Rum.Props.InvSearch.C68_empty_document_violated"], "note": "Soundness, termination, uniqueness and no recheck for all queries of words, NOT, AND, OR with at most 256 operators; completeness if no operator inside the query is true of the empty document and the document is not empty (else violated by the code). Weights: C29_weights_violated. With VACUUM: posting trees whose leftmost page was emptied are excluded (C23)."},
 {"property": "C69", "status": "partial", "theorems": ["Rum.Props.Debug.C69_leaf_pages_partial", "Rum.Props.Debug.C69_four_levels_violated"], "note": "Proved for posting trees of up to three levels after any history; with four levels the code returns NULL for the leftmost leaf (violated theorem, for every such tree)."},
 {"property": "C70", "status": "partial", "theorems": ["Rum.Props.Debug.C70_entry_pages_partial", "Rum.Props.Debug.C70_last_key_violated", "Rum.Props.Debug.C70_empty_key_violated"], "note": "Exact listing proved for every page whose keys all have rows, except that only the first row of the last key is listed (code bug); a key without rows makes the code read an item that is not there."},
 {"property": "C71", "status": "proved", "theorems": ["Rum.Props.Debug.C71_positions_text"], "note": "Includes that no write exceeds the allocated memory."},
 {"property": "C72", "status": "proved", "theorems": ["Rum.Props.Debug.C72_tree_explored"], "note": "After any history of completed insertions and VACUUMs."},
 {"property": "C73", "status": "proved", "theorems": ["Rum.Props.TupleBytes.C73_list", "Rum.Props.TupleBytes.C73_tree", "Rum.Props.TupleBytes.C73_vacuum", "Rum.Props.TupleBytes.C73_inner", "Rum.Props.TupleBytes.C73_model"], "note": "Full statement; the storage of the key value itself by PostgreSQL is a parameter with its decoder (Storable)."},
 {"property": "C74", "status": "partial", "theorems": ["Rum.Props.IndexWalk.C74_search_partial", "Rum.Props.IndexWalk.C74_error_partial", "Rum.Props.IndexWalk.C74_first_column", "Rum.Props.IndexWalk.C74_violated", "Rum.Props.IndexWalk.C74_all_rows_indexed", "Rum.Props.IndexWalk.C74_no_deadlock"], "note": "Completeness and soundness hold for searches that end without an error; that a search never ends with an error is false in a multicolumn index (C74_violated), and proved for an index without keys of an earlier column and for searches in the first column of the index (C74_first_column), hence for every one-column index."},
 {"property": "C75", "status": "partial", "theorems": ["Rum.Props.QueryWalk.C75_query_partial"], "note": "Missing: searches that end with an error (IndexWalk.C74_violated) or deliver nothing although a visible row has the key (VacConc.C62_violated), both defects of the code; how often an additional info is joined; with items ordered by an attached value, histories that use a row pointer again, and NULLs or a join function where an entry is for many keys of the column the value is attached to."},
 {"property": "C76", "status": "proved", "theorems": ["Rum.Props.QSort.C76_sort", "Rum.Props.QSort.C76_list", "Rum.Props.QSort.C76_sorts", "Rum.Props.QSort.C76_orderby", "Rum.Props.QSort.C76_witness"], "note": "Every array, every comparison that is a total preorder. The depth of the stack is a result of the model. C76_sorts and C76_orderby discharge the hypothesis 'a correct sort' of C19, C36, C48, C49, C53, C54, C71 and C75 for sorts in memory of versions up to 13; version 14 and 15 take the same algorithm from PostgreSQL's sort_template.h, which is not in the repository."},
 {"property": "C77", "status": "proved", "theorems": ["Rum.Props.TapeSort.C77_sort", "Rum.Props.TapeSort.C77_heap", "Rum.Props.TapeSort.C77_orderby", "Rum.Props.TapeSort.mergeAll_ok", "Rum.Props.TapeSort.C77_witness", "Rum.Props.BalSort.C77_balanced", "Rum.Props.BalSort.C77_balanced_orderby", "Rum.Props.BalSort.C77_balanced_witness", "Rum.Props.BalSort.C77_balanced_empty_run"], "note": "Every input, every division into portions, every number of tapes from three on (the code has at least 7; version 15: from two on, the code has at least 6). Polyphase merge of tuplesort10.c to tuplesort14.c (cited from tuplesort12.c) and balanced merge of tuplesort15.c (with any correct sort in memory, as PostgreSQL's sort_template.h is not modelled). Not covered: replacement selection (tuplesort96.c), the encoding of tuples on tape, parallel workers."},
 {"property": "C78", "status": "proved", "theorems": ["Rum.Props.RankNorm.C78_distance", "Rum.Props.RankNorm.reals_signs"], "note": "Abstract arithmetic with the sign laws Signs (met by the reals, reals_signs; underflow to zero is excluded by them)."},
 {"property": "C79", "status": "partial", "theorems": ["Rum.Props.RankNorm.C79_scaled_partial", "Rum.Props.RankNorm.C79_scaled_violated"], "note": "Over the reals, for method 32 without method 1 or with at least two positions; with method 1 and a document of one position the claim is false of the code, because it applies 32 before the methods of the document (PostgreSQL applies it last): C79_scaled_violated."},
 {"property": "C80", "status": "proved", "theorems": ["Rum.Props.RankNorm.C80_methods", "Rum.Props.RankNorm.C78_distance"], "note": "Real numbers instead of floating point (stated in the property)."},
 {"property": "C81", "status": "partial", "theorems": ["Rum.Props.PageRefs.C81_page_unchanged_partial", "Rum.Props.PageRefs.C81_page_changed_violated", "Rum.Props.PageRefs.exRows_ok"], "note": "Proved for pages that do not change before the items are used, and for additional information passed by value; false of the code otherwise, because scanPostingTree keeps pointers into the page (C81_page_changed_violated)."},
 {"property": "C82", "status": "proved", "theorems": ["Rum.Props.TapeBytes.C82_tape_roundtrip"], "note": "LogicalTape is taken to give back the bytes written to it (PostgreSQL)."},
 {"property": "C83", "status": "proved", "theorems": ["Rum.Props.RankIndexSign.C83_index_distance", "Rum.Props.RankNorm.reals_signs"], "note": "Abstract arithmetic with the sign laws Signs (met by the reals). What the index tells the function is the predicate Told, linked to the stored entries by C41_told. Words only: no prefixes, no phrases (C41_phrase_violated shows phrases score 0)."},
 {"property": "C84", "status": "proved", "theorems": ["Rum.Props.DebugEntry.C84_entry_tree_explored"], "note": "Over every history of insertions and VACUUMs of the index model (C15, C50). Keys are compared in the row, their conversion to text is not modelled."}
]}
