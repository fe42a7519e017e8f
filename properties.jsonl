{"id": "C01", "title": "Grid keys never collide on disk", "statement": "Two different grid keys (phrase id, language set) are stored under different database keys, and single-phrase rows, prefix-bin rows and the boundaries row never share a database key; so a lookup for one key can never return another key's data.", "quantifier": "all pairs of phrase ids (32 bit), language sets (128 bit) and row kinds", "why_tests_cant": "2^160 keys per row kind; the variable-length language suffix is where collisions would hide and tests only try a few suffix lengths", "anchors": ["rust-src/src/gridstore/common.rs:GridKey::write_to", "rust-src/src/gridstore/builder.rs:GridStoreBuilder::finish", "rust-src/src/gridstore/store.rs:GridStore::get"]}
{"id": "C02", "title": "keys() and iter() list exactly what was stored", "statement": "After a build into an empty directory, keys() yields exactly the grid keys held by the builder, each once, with phrase id and language set decoded to the original values, and iter() yields for each of them the same entries as get() on that key.", "quantifier": "all builder contents (any number of keys, languages, entries, boundaries)", "why_tests_cant": "depends on every possible set of keys and on rows of other kinds stopping the scan at the right place", "anchors": ["rust-src/src/gridstore/store.rs:GridStore::keys", "rust-src/src/gridstore/store.rs:GridStore::iter", "rust-src/src/gridstore/builder.rs:GridStoreBuilder::finish"]}
{"id": "C03", "title": "keys() lists keys in ascending grid-key order", "statement": "keys() yields grid keys in ascending order of (phrase id, language set), the order the builder itself keeps them in and the order the existing unit test compares with.", "quantifier": "all builder contents", "why_tests_cant": "the unit test uses sets for which byte order and numeric order coincide; a counterexample needs two language sets of different byte length under the same phrase", "anchors": ["rust-src/src/gridstore/store.rs:GridStore::keys", "rust-src/src/gridstore/common.rs:GridKey::write_to", "rust-src/src/gridstore/common.rs:GridKey (derived Ord)"]}
{"id": "C04", "title": "Read-back is exact", "statement": "If every entry written has score at most 15, id below 2^24 and relevance one of 0.4, 0.6, 0.8, 1, then get(key) after finish returns exactly the distinct entries written under the key, each once, in descending order of relevance, score, z-order tile, id, phrase hash.", "quantifier": "all lists of entries under all keys, all tiles, all sizes of record below 4 GiB", "why_tests_cant": "record layout (pointer widths, shared id lists, varints) depends on the whole content; boundary cases such as a pointer crossing 255/65535/16777215 bytes need huge records", "anchors": ["rust-src/src/gridstore/builder.rs:get_encoded_value", "rust-src/src/gridstore/builder.rs:extend_entries", "rust-src/src/gridstore/store.rs:decode_value", "rust-src/src/gridstore/gridstore_format.rs"]}
{"id": "C05", "title": "An over-large score only affects the score", "statement": "Writing an entry whose score exceeds 15 (the documented 4-bit width) may change the score read back, but the relevance read back is still the relevance written.", "quantifier": "all entries", "why_tests_cant": "tests only use scores up to 15; the defect shows for some (relevance, score) pairs only", "anchors": ["rust-src/src/gridstore/builder.rs:extend_entries", "rust-src/src/gridstore/builder.rs:GridStoreBuilder::compact_append", "rust-src/src/gridstore/common.rs:GridEntry", "rust-src/src/gridstore/store.rs:decode_value"]}
{"id": "C06", "title": "Builder histories behave like a map of sets", "statement": "After any sequence of insert, append, compact_append and successful renumber calls with scores at most 15, the finished store answers get(key) for every key as a simple map from keys to sets of entries would: insert replaces the set of the key, append and compact_append add to it, renumber moves sets, everything else is untouched; a key never mentioned yields nothing. Entries come back as the format keeps them: relevances other than 0.4, 0.6 and 0.8 as 1, ids modulo 2^24.", "quantifier": "all call sequences, keys, entries of score at most 15 and hash-map iteration orders, records below 4 GiB", "why_tests_cant": "unbounded histories; interaction of replace, append and renumber on the same key", "anchors": ["rust-src/src/gridstore/builder.rs:GridStoreBuilder::insert", "rust-src/src/gridstore/builder.rs:GridStoreBuilder::append", "rust-src/src/gridstore/builder.rs:GridStoreBuilder::compact_append", "rust-src/src/gridstore/builder.rs:GridStoreBuilder::renumber", "rust-src/src/gridstore/builder.rs:GridStoreBuilder::finish"]}
{"id": "C07", "title": "Stored bytes do not depend on append order or hash order", "statement": "The bytes stored for a key depend only on the set of entries appended: reordering or repeating entries, or splitting them over several calls, and any iteration order of the hash maps in the builder, give the same bytes. (compact_append with no tiles is excluded: it leaves a trace on disk, see C08.)", "quantifier": "all permutations and splits of all entry lists and all hash-map iteration orders", "why_tests_cant": "hash iteration order is randomised per process; a test sees one order per run", "anchors": ["rust-src/src/gridstore/builder.rs:get_encoded_value", "rust-src/src/gridstore/builder.rs:copy_entries", "rust-src/src/gridstore/builder.rs:extend_entries"]}
{"id": "C08", "title": "compact_append is append of one entry per tile", "statement": "compact_append(key, relev, score, id, hash, tiles) leaves the same bytes in the finished store as append(key, entries) with one entry per tile carrying the same attributes; with no tiles the bytes differ, but every key still reads the same (scores at most 15).", "quantifier": "all builder states, keys, attributes and tile lists", "why_tests_cant": "two separate code paths; equality must hold for every builder state", "anchors": ["rust-src/src/gridstore/builder.rs:GridStoreBuilder::compact_append", "rust-src/src/gridstore/builder.rs:GridStoreBuilder::append"]}
{"id": "C09", "title": "renumber moves every phrase and loses nothing", "statement": "renumber(map) succeeds exactly when every phrase id in the builder is below the length of the map and no two keys are sent to the same new key; after success the entries of (p, langs) are found under (map[p], langs) and nowhere else.", "quantifier": "all builder states and all renumbering maps", "why_tests_cant": "quantifies over all maps including non-injective and too-short ones", "anchors": ["rust-src/src/gridstore/builder.rs:GridStoreBuilder::renumber"]}
{"id": "C10", "title": "A failed renumber leaves the builder unchanged", "statement": "If renumber returns an error, the builder still holds what it held before the call.", "quantifier": "all builder states and all renumbering maps", "why_tests_cant": "existing tests only look at the error value, not at the builder afterwards", "anchors": ["rust-src/src/gridstore/builder.rs:GridStoreBuilder::renumber"]}
{"id": "C11", "title": "finish always terminates", "statement": "finish() returns for every builder content and every list of prefix boundaries.", "quantifier": "all builder contents and boundary lists", "why_tests_cant": "non-termination cannot be observed by a finite test, and the trigger is a single phrase id out of 2^32", "anchors": ["rust-src/src/gridstore/builder.rs:GridStoreBuilder::finish"]}
{"id": "C12", "title": "A crash during finish never exposes torn or misleading data", "statement": "If the process dies at any point of finish() writing into an empty directory, a store later opened on what was written gives, for every key, either nothing or exactly the value of the completed build; and a range query never consults prefix bins, unless every bin had been written.", "quantifier": "all builder contents, boundary lists and all crash points (prefixes of the write sequence)", "why_tests_cant": "needs a kill at every write of every possible build", "anchors": ["rust-src/src/gridstore/builder.rs:GridStoreBuilder::finish", "rust-src/src/gridstore/store.rs:GridStore::new_with_options", "rust-src/src/gridstore/store.rs:GridStore::streaming_get_matching"]}
{"id": "C13", "title": "Every vector written into a record reads back identically", "statement": "A vector of fixed-size, variable-size or uniform-size items written anywhere in a record below 4 GiB is read back with the same length and items, whatever is written before and after it; in particular no internal pointer is ever truncated by the variable pointer width. The width of the uniform-size items is four bytes plus the fewest bytes that hold every pointer of the vector.", "quantifier": "all buffers, positions, vectors of all lengths, all 32-bit addresses", "why_tests_cant": "pointer widths change at 2^8, 2^16 and 2^24 bytes and varint widths at 2^7, 2^14, 2^21 and 2^28; tests cover small records", "anchors": ["rust-src/src/gridstore/gridstore_format.rs:Writer", "rust-src/src/gridstore/gridstore_format.rs:FixedVec", "rust-src/src/gridstore/gridstore_format.rs:VarVec", "rust-src/src/gridstore/gridstore_format.rs:UniformVec", "rust-src/src/gridstore/gridstore_format.rs:Coord"]}
{"id": "C14", "title": "Prefix boundaries survive the trip to disk", "statement": "The boundaries a reader uses are exactly the set of boundaries loaded into the builder, for any number and any values; and opening a store never fails because of the stored boundaries.", "quantifier": "all lists of 32-bit boundaries", "why_tests_cant": "all lengths and values of the list", "anchors": ["rust-src/src/gridstore/builder.rs:GridStoreBuilder::load_bin_boundaries", "rust-src/src/gridstore/builder.rs:GridStoreBuilder::finish", "rust-src/src/gridstore/store.rs:GridStore::new_with_options"]}
{"id": "C15", "title": "A range query returns exactly the range", "statement": "Without box and proximity and with a row limit not below the number of rows in the range, a query for phrase ids start..end that is answered from single-phrase rows yields every entry stored under every phrase id in the range, in any language, once per stored row, and nothing else.", "quantifier": "all stores, all ranges, all language sets", "why_tests_cant": "off-by-one at both ends, neighbouring rows of other kinds, and the end-of-keyspace all need universally quantified stores", "anchors": ["rust-src/src/gridstore/store.rs:GridStore::streaming_get_matching", "rust-src/src/gridstore/common.rs:MatchKey::matches_key", "rust-src/src/gridstore/common.rs:MatchKey::write_start_to"]}
{"id": "C16", "title": "An exact query is the one-element range", "statement": "A query for exactly phrase id p yields the entries of phrase p only and all of them, for every 32-bit p (with overflow checks on, for every p below 2^32-1). In builds with debug assertions, boxes have to have their corners in order.", "quantifier": "all stores and all 32-bit phrase ids", "why_tests_cant": "the failing id is one value out of 2^32", "anchors": ["rust-src/src/gridstore/store.rs:GridStore::streaming_get_matching"]}
{"id": "C17", "title": "Prefix bins answer ranges like the phrases themselves", "statement": "A range query whose two ends are stored boundaries, answered from prefix bins, yields the same set of entries (with the same language matching) as the same query answered from the single-phrase rows. In builds with debug assertions, boxes have to have their corners in order.", "quantifier": "all builder contents, all boundary lists, all ranges between boundaries", "why_tests_cant": "depends on where every phrase falls relative to every boundary; tests use boundaries that start at phrase 0", "anchors": ["rust-src/src/gridstore/builder.rs:GridStoreBuilder::finish", "rust-src/src/gridstore/store.rs:GridStore::streaming_get_matching", "rust-src/src/gridstore/builder.rs:copy_entries"]}
{"id": "C18", "title": "Language matching is set intersection", "statement": "An entry counts as matching the query language exactly when it was stored for all languages or its language set shares a language with the query's; matching entries keep their stored relevance, others have it multiplied by 0.96 unless they lie within the proximity radius.", "quantifier": "all pairs of 128-bit language sets, all entries, all radii", "why_tests_cant": "2^256 pairs of sets, decoded from a variable-length suffix", "anchors": ["rust-src/src/gridstore/common.rs:MatchKey::matches_language", "rust-src/src/gridstore/store.rs:decode_matching_value"]}
{"id": "C19", "title": "Box filter is exact", "statement": "A query with a bounding box yields exactly the entries whose tile lies in the box of those it yields without the box. If one stored key answers it and there is no proximity point, they come in the same relative order as without the box. In builds with debug assertions, boxes have to have their corners in order.", "quantifier": "all stores, boxes and queries answered from single-phrase rows with a row limit not below the number of rows", "why_tests_cant": "the code searches a z-order range and clips it; z-order jumps make boundary cases numerous", "anchors": ["rust-src/src/gridstore/spatial.rs:bbox_range", "rust-src/src/gridstore/spatial.rs:bbox_filter", "rust-src/src/gridstore/spatial.rs:coord_binary_search"]}
{"id": "C20", "title": "Proximity ordering is a permutation sorted by z-order distance", "statement": "With a proximity point and no box, the tiles of one relevance and score are all delivered, each once, in non-decreasing order of distance along the z-order curve from the point.", "quantifier": "all sets of tiles and all points", "why_tests_cant": "depends on the position of the point relative to every tile, including outside both ends", "anchors": ["rust-src/src/gridstore/spatial.rs:proximity", "rust-src/src/gridstore/spatial.rs:coord_binary_search"]}
{"id": "C21", "title": "Box and proximity together are exact and ordered", "statement": "With a box and a proximity point, the tiles of one relevance and score delivered are exactly those in the box, each once, in non-decreasing z-order distance from the point, wherever the point lies relative to the box. In builds with debug assertions, boxes have to have their corners in order.", "quantifier": "all sets of tiles, all boxes, all points", "why_tests_cant": "the point may fall before, inside or after the clipped range; indices on both sides are open-ended", "anchors": ["rust-src/src/gridstore/spatial.rs:bbox_proximity_filter", "rust-src/src/gridstore/spatial.rs:bbox_range"]}
{"id": "C22", "title": "Matching entries come out best first", "statement": "The entries of a query come out in non-increasing order of relevance, and within equal relevance in non-increasing order of score-distance (callers rely on this to stop early).", "quantifier": "all stores and all queries, with and without proximity", "why_tests_cant": "tests check a handful of stores; the violation needs a particular geometry of tiles or a language mismatch near the proximity point", "anchors": ["rust-src/src/gridstore/store.rs:GridStore::streaming_get_matching", "rust-src/src/gridstore/store.rs:decode_matching_value", "rust-src/src/gridstore/coalesce.rs:coalesce_single"]}
{"id": "C23", "title": "The row limit never costs one of the best results", "statement": "Limiting a query to n rows leaves out nothing that is better in relevance than any of its first n results; with a proximity point there is one exception, as in C22: a result in another language within the radius may be left out though one outside the radius, with 0.96 times its relevance, is among the first n. Without proximity the limit does not even change the relevance, score-distance and language match of the first n results.", "quantifier": "all stores, all queries, all limits n at least 1", "why_tests_cant": "quantifies over the order in which rows are met and over all ties", "anchors": ["rust-src/src/gridstore/store.rs:GridStore::streaming_get_matching"]}
{"id": "C24", "title": "A query never panics", "statement": "A matching query on a store produced by the builder never panics, whatever the limit, phrase, box, proximity point and radius.", "quantifier": "all stores produced by builds and all query parameters", "why_tests_cant": "each panic needs one particular parameter value", "anchors": ["rust-src/src/gridstore/store.rs:GridStore::streaming_get_matching", "rust-src/src/gridstore/store.rs:decode_matching_value", "rust-src/src/gridstore/spatial.rs:bbox_range"]}
{"id": "C25", "title": "Score-distance rewards closeness and score", "statement": "In 64-bit floating point arithmetic, score-distance never decreases when the distance shrinks or the score grows (scores above 7 count as 7), is the same for all tiles at or beyond the proximity radius, and is a finite number of at least 1 whenever the radius in tiles is at most 2^1000 (every zoom up to 16 and every radius up to 2^999 miles). The proximity radius in tiles is the radius in miles times 4/5 at zoom 14 and grows by half with every zoom, to within one part in 2^50, at zooms up to 47 (up to there the powers of 3/2 are exact in whatever order they are multiplied).", "quantifier": "all zooms, distances other than NaN, scores and radii whose size in tiles is a number", "why_tests_cant": "floating point rounding at every combination of values", "anchors": ["rust-src/src/gridstore/spatial.rs:scoredist", "rust-src/src/gridstore/spatial.rs:proximity_radius", "rust-src/src/gridstore/spatial.rs:tile_dist", "rust-src/src/gridstore/spatial.rs:tiles_per_mile_by_zoom"]}
{"id": "C26", "title": "Zoom adjustment keeps geography", "statement": "Adjusting query options to another zoom: the adjusted proximity tile is the ancestor (zooming out) or a descendant (zooming in) of the original; the adjusted box contains every tile that is a descendant of, and every ancestor of, a tile in the original box, and when zooming in nothing else; zooming in and back out restores the options; valid tiles at zooms 0 to 16 never overflow 16 bits as long as the zooms differ by less than 16. global_bbox_for_zoom is one box that holds exactly the tiles of the zoom, for zooms 0 to 16.", "quantifier": "all options and all zoom pairs", "why_tests_cant": "all 16-bit coordinates and zoom pairs; overflow only at the edges", "anchors": ["rust-src/src/gridstore/common.rs:MatchOpts::adjust_to_zoom", "rust-src/src/gridstore/spatial.rs:adjust_bbox_zoom", "rust-src/src/gridstore/spatial.rs:global_bbox_for_zoom"]}
{"id": "C27", "title": "Nearby-only restricts to a square round the point", "statement": "with_nearby_only confines the query to the tiles within the nearby padding of the proximity point on both axes, intersected with any existing box; the proximity tile itself always stays inside if it was inside before.", "quantifier": "all options with a proximity point, all zooms 0 to 16", "why_tests_cant": "fails only within 66 tiles of the edge at the highest zooms", "anchors": ["rust-src/src/gridstore/common.rs:MatchOpts::with_nearby_only"]}
{"id": "C28", "title": "The bounded priority queue keeps the best k", "statement": "After any sequence of pushes a bounded queue of size k holds the k largest of the pushed elements (all, if fewer), whatever the order of pushes and however ties are broken inside the heap; and push reports whether the element was kept.", "quantifier": "all sequences of pushes, all sizes k, all tie-breaking heaps", "why_tests_cant": "unbounded histories, all orders", "anchors": ["rust-src/src/gridstore/common.rs:ConstrainedPriorityQueue::push", "rust-src/src/gridstore/common.rs:ConstrainedPriorityQueue::into_vec_desc"]}
{"id": "C29", "title": "Grouping loses and reorders nothing", "statement": "Grouping a sequence by a key yields non-empty groups whose concatenation is the sequence, each group having one key, neighbouring groups different keys.", "quantifier": "all sequences and key functions, including stateful key functions", "why_tests_cant": "all sequences", "anchors": ["rust-src/src/gridstore/common.rs:somewhat_eager_groupby"]}
{"id": "C30", "title": "Every stack is made of compatible phrase matches", "statement": "On every path from the root of the stack tree the phrase matches have strictly increasing index types and pairwise disjoint token masks; a node's mask is the union and its path relevance the sum of the weights along the path, its index and zoom are those of its phrase match, and its set of excluded indexes is the union of those of the phrase matches along the path.", "quantifier": "all lists of phrase matches", "why_tests_cant": "exponentially many stacks; depends on pruning decisions made during construction", "anchors": ["rust-src/src/gridstore/stackable.rs:stackable", "rust-src/src/gridstore/stackable.rs:binned_stackable"]}
{"id": "C31", "title": "No stack contains two phrase matches declared non-overlapping", "statement": "If a phrase match lists index i among its non-overlapping indexes, no stack contains it together with a phrase match of index i.", "quantifier": "all lists of phrase matches", "why_tests_cant": "tests only use stacks of two levels, where the check happens to be enough", "anchors": ["rust-src/src/gridstore/stackable.rs:binned_stackable", "rust-src/src/gridstore/stackable.rs:StackableNode.bmask"]}
{"id": "C32", "title": "No compatible stack is missing below the limit", "statement": "As long as the number of leaves stays below the soft limit, every chain of phrase matches with increasing types, disjoint masks and no neighbouring conflict is a path of the tree, exactly once per choice of phrase matches, and nothing else is. (The root counts as a phrase match of index 129 for conflicts.)", "quantifier": "all lists of phrase matches for which the limit is not reached", "why_tests_cant": "exponentially many stacks", "anchors": ["rust-src/src/gridstore/stackable.rs:stackable", "rust-src/src/gridstore/stackable.rs:binned_stackable"]}
{"id": "C33", "title": "The stack limit drops only worse stacks and never panics", "statement": "Whatever nodes are added in whatever order, the node store never panics, its leaf count is exact, it never falls below the limit once reached, and every node dropped or refused had lower maximal relevance than every node kept at that moment.", "quantifier": "all sequences of node additions and all limits", "why_tests_cant": "needs thousands of leaves and all orders of relevance", "anchors": ["rust-src/src/gridstore/stackable.rs:ArenaManager::add", "rust-src/src/gridstore/stackable.rs:ArenaManager::cull_min"]}
{"id": "C34", "title": "A node's maximal relevance bounds everything below it", "statement": "The maximal relevance recorded at a tree node is at least the path relevance of the node and of every node below it, in floating point arithmetic, and without culling it is attained by one of them.", "quantifier": "all lists of phrase matches with finite weights", "why_tests_cant": "the search prunes on this number; a single violation loses results", "anchors": ["rust-src/src/gridstore/stackable.rs:binned_stackable"]}
{"id": "C35", "title": "coalesce returns a short, sorted, deduplicated list", "statement": "coalesce returns at most 40 contexts in non-increasing order of relevance, then score-distance, all less than 0.25 below the best, no two with the same feature id in the same index.", "quantifier": "all stores, stacks and options", "why_tests_cant": "all stores and stacks", "anchors": ["rust-src/src/gridstore/coalesce.rs:coalesce", "rust-src/src/gridstore/coalesce.rs:coalesce_single", "rust-src/src/gridstore/coalesce.rs:coalesce_multi"]}
{"id": "C36", "title": "Features of different indexes are never confused", "statement": "The temporary id used for deduplication is different for different (index, feature id) pairs.", "quantifier": "all 16-bit index numbers and all stored feature ids", "why_tests_cant": "tests use index numbers 0 to 5", "anchors": ["rust-src/src/gridstore/coalesce.rs:grid_to_coalesce_entry", "rust-src/src/gridstore/coalesce.rs:coalesce"]}
{"id": "C37", "title": "Single coalesce finds every feature", "statement": "For a single phrase match with at most 80 distinct features among its matching entries and no proximity, every feature whose best relevance is less than 0.25 below the best is represented in the coalesced set, by one of its entries with the highest relevance and score-distance.", "quantifier": "all stores and queries without proximity and with at most 80 features", "why_tests_cant": "tests have no feature with id 0 and score 0", "anchors": ["rust-src/src/gridstore/coalesce.rs:coalesce_single", "rust-src/src/gridstore/coalesce.rs:tree_coalesce_single"]}
{"id": "C38", "title": "Single coalesce does not depend on hash order", "statement": "The result of coalescing a single phrase match is the same for every iteration order of the hash map it collects features in.", "quantifier": "all stores, queries and hash-map iteration orders", "why_tests_cant": "hash order differs per process", "anchors": ["rust-src/src/gridstore/coalesce.rs:coalesce_single"]}
{"id": "C39", "title": "Stacked contexts are consistent", "statement": "In every context returned for several phrase matches (with non-zero masks), each entry is made from a grid of its phrase match's own query, entries have pairwise disjoint masks whose union is the context mask, and the tile of every further entry contains the tile of the first entry. Without any condition on masks, zooms or the number of phrase matches, each entry is made from a grid that the query of some phrase match of the stack returned, and its phrasematch_id is 0.", "quantifier": "all stores, stacks and options; for the masks and tiles: indexes with zooms less than 16 apart (or overflow checks on)", "why_tests_cant": "all combinations of grids at all zooms", "anchors": ["rust-src/src/gridstore/coalesce.rs:coalesce_multi"]}
{"id": "C40", "title": "Stacked coalesce does not depend on hash order", "statement": "For phrase matches with distinct index numbers and non-zero masks the result of coalesce is the same for every iteration order of its hash maps.", "quantifier": "all stores, stacks, options and hash-map iteration orders", "why_tests_cant": "hash order differs per process; ties are rare", "anchors": ["rust-src/src/gridstore/coalesce.rs:coalesce_multi", "rust-src/src/gridstore/coalesce.rs:coalesce"]}
{"id": "C41", "title": "Tree coalesce returns only genuine stacks", "statement": "Every context returned by tree coalesce consists of one grid for each phrase match on a path of the stack tree, each obtained from that phrase match's own query, every grid's tile contained in the tile of its parent on the path; its mask is the union of the masks and its relevance the sum of the weighted grid relevances in path order, less 0.01 where the ordering penalty applies. For requests in which match keys share an id, the grid may come from the query of another match key with that id; all else holds, and the tiles lie in each other whenever zooms ascend.", "quantifier": "all stores, trees and options, all heap tie-breaks; for the own query: match keys with the same id are the same scan; for the tiles: arithmetic is checked or zooms ascend with types by less than 16", "why_tests_cant": "all trees and all grids", "anchors": ["rust-src/src/gridstore/coalesce.rs:tree_coalesce", "rust-src/src/gridstore/coalesce.rs:tree_coalesce_single", "rust-src/src/gridstore/coalesce.rs:penalize_multi_context"]}
{"id": "C42", "title": "Tree coalesce output is bounded and sorted", "statement": "Tree coalesce returns at most 800 contexts, ordered by higher relevance, then higher score-distance, then lower index, then higher x, y and id.", "quantifier": "all stores, trees and options", "why_tests_cant": "all stores and trees", "anchors": ["rust-src/src/gridstore/coalesce.rs:tree_coalesce", "rust-src/src/gridstore/common.rs:CoalesceContext::sort_key"]}
{"id": "C43", "title": "Fetch quotas are respected", "statement": "In one tree coalesce at most 8 one-letter single-token range scans, at most 8 single-token range scans of high-zoom indexes, at most 40 single-token range scans, at most 40 range scans of high-zoom indexes and at most 600 scans of high-zoom indexes are executed. High-zoom scans are those of indexes of zoom 14 or more that are not nearby-only.", "quantifier": "all trees, options and stores", "why_tests_cant": "quota accounting spans chunks, duplicate keys and skipped keys", "anchors": ["rust-src/src/gridstore/coalesce.rs:tree_coalesce"]}
{"id": "C44", "title": "Tree coalesce terminates", "statement": "Tree coalesce finishes on every stack tree after at most as many rounds as the tree has nodes, and processes no node, hence no path, twice.", "quantifier": "all trees", "why_tests_cant": "termination over all trees and results", "anchors": ["rust-src/src/gridstore/coalesce.rs:tree_coalesce"]}
{"id": "C45", "title": "Stopping early loses nothing better", "statement": "When tree coalesce stops because its result list is full, no context reachable from the unprocessed part of the tree has a relevance above the worst kept result.", "quantifier": "all trees, stores, options (grid relevances at most 1, weights not negative)", "why_tests_cant": "relies on an upper bound holding in floating point for every subtree", "anchors": ["rust-src/src/gridstore/coalesce.rs:tree_coalesce", "rust-src/src/gridstore/stackable.rs:binned_stackable"]}
{"id": "C46", "title": "Parallel scheduling does not change the result", "statement": "However the worker threads interleave, the collected results of a parallel phase are those of running the tasks one after another in order.", "quantifier": "all schedules of all task lists", "why_tests_cant": "a test sees one schedule per run", "anchors": ["rust-src/src/gridstore/coalesce.rs:tree_coalesce (into_par_iter)"]}
{"id": "C47", "title": "Collapsing phrase matches conserves match keys", "statement": "Collapsing groups phrase matches by (weight, index, mask) in order of first appearance, and the match keys of a group are exactly the match keys of its members in order; collapsing twice changes nothing.", "quantifier": "all lists of phrase matches", "why_tests_cant": "all lists, including phrase matches that already carry several match keys", "anchors": ["rust-src/src/gridstore/coalesce.rs:collapse_phrasematches"]}
{"id": "C48", "title": "Language arrays round-trip through JavaScript", "statement": "Converting a JavaScript language array to a language set and back gives the sorted array of the distinct ids below 128; null means every language.", "quantifier": "all arrays of language ids and all 128-bit sets", "why_tests_cant": "2^128 sets", "anchors": ["native/src/gridstore.rs:langarray_to_langset", "native/src/gridstore.rs:langset_to_langarray"]}
{"id": "C49", "title": "A finished JavaScript builder accepts nothing more", "statement": "After finish() every further builder call throws and nothing reaches the store; before it calls act exactly as on the native builder.", "quantifier": "all sequences of JavaScript builder calls", "why_tests_cant": "all call sequences", "anchors": ["native/src/gridstore.rs:JsGridStoreBuilder"]}
{"id": "C50", "title": "Single-match tree coalesce agrees with coalesce", "statement": "For one phrase match of positive weight with one match key that is not restricted to the neighbourhood, queried at the zoom of its index, stack-and-coalesce followed by the 0.25 relevance cut-off returns the same contexts in the same order as coalesce, apart from the label of the match key (coalesce always reports 0), and one panics exactly when the other does. (A match restricted to the neighbourhood, or of weight 0, can differ.)", "quantifier": "all stores, all such phrase matches, all options, all hash-map orders", "why_tests_cant": "two separate implementations; tests compare them on examples", "anchors": ["rust-src/src/gridstore/coalesce.rs:coalesce", "rust-src/src/gridstore/coalesce.rs:stack_and_coalesce"]}
{"id": "C51", "title": "What JavaScript writes it reads back", "statement": "If a sequence of JavaScript builder calls and the finish after it all return, get on a store opened on the result returns, for any object standing for a key, exactly the entries the calls leave under that key (languages in any order or repeated), in the store's order, as kept by the format; undefined if there are none.", "quantifier": "all sequences of calls with entries of score at most 15, all key objects, all ways serde decodes entries, all hash-map orders", "why_tests_cant": "unboundedly many call sequences and argument values", "anchors": ["native/src/gridstore.rs:JsGridStoreBuilder", "native/src/gridstore.rs:JsGridStore", "native/src/gridstore.rs:prep_for_insert"]}
{"id": "C52", "title": "The JavaScript key iterator lists every key once", "statement": "However often next() is called, the iterator of keys() gives an object for every stored key exactly once and after that only done; passing such an object to get reads that very key.", "quantifier": "all builders, all numbers of calls", "why_tests_cant": "all key sets incl. all 2^128 language sets; all iteration lengths", "anchors": ["native/src/gridstore.rs:JsGridKeyStoreKeyIterator", "rust-src/src/gridstore/store.rs:keys"]}
{"id": "C53", "title": "Phrase matches from JavaScript lose no key when collapsed", "statement": "Every list of phrase matches the bindings accept has one match key per phrase match and fields in the range of their types; collapsing it does not panic and keeps every match key.", "quantifier": "all JavaScript values", "why_tests_cant": "all argument values and groupings", "anchors": ["native/src/gridstore.rs:deserialize_phrasesubq", "rust-src/src/gridstore/coalesce.rs:collapse_phrasematches"]}
{"id": "C54", "title": "Bins of the phrase index work as bins of the store", "statement": "When the buffer of getPrefixBins is passed to loadBinBoundaries, a range query from the start of one bin to the start of another or the end of the last is answered from bin rows, with the same results as from phrase rows. In builds with debug assertions, boxes have to have their corners in order.", "quantifier": "all ascending bins below 2^32-1, all builders whose phrases lie in or after the bins, all queries", "why_tests_cant": "all bin layouts and contents", "anchors": ["native/src/fuzzy_phrase.rs:getPrefixBins", "native/src/gridstore.rs:loadBinBoundaries", "rust-src/src/gridstore/store.rs:streaming_get_matching"]}
{"id": "C55", "title": "Tree coalesce misses nothing when it has room", "statement": "Take grids for the nodes of a path from the root of a stack tree, each the first result with its tile and feature among the first 100000 for a match key of its node, each in a bounding box of its index, and each tile containing the next. If the scan quotas suffice for all match keys of the tree and fewer than 800 contexts are returned, then the context stacked from these grids is among them, or forty other contexts are that were stacked from the same nodes with the same last match key and rank no lower. A path of a single node without children is excepted.", "quantifier": "all lists of phrase matches with unique match key ids and ascending zooms, all stores, options, paths and grids", "why_tests_cant": "all trees, contents, and ways through the best-first search", "anchors": ["rust-src/src/gridstore/coalesce.rs:tree_coalesce"]}
{"id": "C56", "title": "stackAndCoalesce returns the stacks of the phrase matches, no others, and misses none when it has room", "statement": "Every context stack_and_coalesce returns is made of hits on phrase matches it was given: the phrase matches form a stack (types ascend, no word twice, no neighbours that exclude each other), each grid is among the first 100000 results of its index for the match key (80 for a single phrase match nothing can be put below) and, except for such a single phrase match, the first of them with its tile and feature, each tile contains the next, the mask is the union, and the relevance is the sum of the weighted relevances, less 0.01 when the ordering penalty applies. Conversely, if the scan quotas suffice for all stacks and fewer than 800 contexts are returned, then for all hits that stack up the context made of them is among the results, or forty others are that are made of phrase matches of the same weights, indexes and masks with the same last match key and rank no lower.", "quantifier": "all lists of phrase matches with one match key each, distinct ids and fewer than 2000 complete stacks; all stores, options and hits", "why_tests_cant": "all combinations of phrase matches, contents and grids; completeness is about results that are not returned", "anchors": ["rust-src/src/gridstore/coalesce.rs:stack_and_coalesce", "rust-src/src/gridstore/coalesce.rs:collapse_phrasematches", "rust-src/src/gridstore/stackable.rs:stackable", "rust-src/src/gridstore/coalesce.rs:tree_coalesce"]}
{"id": "C57", "title": "coalesce finds nested grids", "statement": "Take a stack of phrase matches of different indexes that cover disjoint non-empty sets of tokens, and one grid of each, found by its own query, so that in order of zoom and then index number each tile contains the next. Then there is a context whose first entry is the innermost grid and which has one entry for every phrase match, each at least as relevant as the grid given; coalesce returns it, unless it returns one for the same feature (the same temporary id) that does not rank behind it, or forty contexts that do not rank behind it, or another consistent context is 0.25 or more above it.", "quantifier": "all stores, stacks of two or more phrase matches with weights between 0 and 1, options and grids", "why_tests_cant": "all contents and nestings; it is about contexts that are not returned", "anchors": ["rust-src/src/gridstore/coalesce.rs:coalesce_multi", "rust-src/src/gridstore/coalesce.rs:coalesce"]}
{"id": "C58", "title": "The relevance of a coalesced context is the sum of its entries", "statement": "For phrase matches that cover disjoint non-empty sets of tokens, the relevance of every context coalesce returns is the sum of the relevances of its entries, to within 2^-39, less 0.01 if the first entry is from the phrase match that comes last by zoom and index number and there is no second entry or one with a smaller mask. For a single phrase match it is exactly the relevance of the only entry.", "quantifier": "all stores, stacks with weights between 0 and 1, and options", "why_tests_cant": "entries are replaced by better ones in any order, with rounding at every step", "anchors": ["rust-src/src/gridstore/coalesce.rs:coalesce_multi", "rust-src/src/gridstore/coalesce.rs:coalesce_single"]}
{"id": "C59", "title": "The stack limit drops only stacks worse than all it keeps", "statement": "If a stack of compatible phrase matches is missing from the tree (or is there fewer times than it can be chosen), then the tree holds at least as many complete stacks as the limit, and every complete stack in the tree has a larger relevance than the missing one.", "quantifier": "all lists of phrase matches with weights between 0 and 1, and all limits", "why_tests_cant": "the limit of 2000 is reached in countless orders of adding, skipping and culling; the estimate used for skipping is rounded differently from the relevance itself", "anchors": ["rust-src/src/gridstore/stackable.rs:stackable", "rust-src/src/gridstore/stackable.rs:binned_stackable", "rust-src/src/gridstore/stackable.rs:ArenaManager::add"]}
{"id": "C60", "title": "Coalescing does not panic", "statement": "coalesce, tree_coalesce and stack_and_coalesce return for every request whose indexes were written by the builder, whether finish ended or not (records below 4 GiB, a proximity radius that is a number, zoom at most 16), whose phrase matches have at least one match key (coalesce: at least one phrase match; stack_and_coalesce: finite weights of at most one). In builds with overflow checks and debug assertions they return if in addition the point and the boxes lie inside the world, the corners of the request box are in order, the square of a nearby-only match key meets that box, zooms are at most 15, higher types are not at lower zooms, no phrase id is the largest one, no range ends before it starts, and a single phrase match given to coalesce is at the zoom of the request.", "quantifier": "all builder histories, any number of builds in one directory, each stopped anywhere, phrase matches, options, hash orders, and both kinds of builds", "why_tests_cant": "panics hide in rare combinations: overflow of shifts and 16 bit coordinates, empty vectors, not-a-number comparisons, ids above 2^25, arena entries that were culled", "anchors": ["rust-src/src/gridstore/coalesce.rs:coalesce", "rust-src/src/gridstore/coalesce.rs:tree_coalesce", "rust-src/src/gridstore/coalesce.rs:stack_and_coalesce", "rust-src/src/gridstore/stackable.rs:stackable"]}
{"id": "C61", "title": "Tree coalesce works best first, eight steps at a time", "statement": "In every round tree_coalesce takes the nodes of the stack tree in order: highest reachable relevance first, then those whose index has the proximity point inside a bounding box, then those with the highest score. Nothing taken is preceded by, and nothing left in the queue is better than, what was taken. A round takes at most eight nodes that have something to do (a scan, or combining with parents or children), and fewer only if the queue is empty or nothing left can beat the worst of a full list of results.", "quantifier": "all stack trees, options, heaps that break ties in any way, and every round of every run", "why_tests_cant": "order of work shows in results only when quotas or the result limit cut off, and ties are broken differently by different heaps", "anchors": ["rust-src/src/gridstore/coalesce.rs:CoalesceStep", "rust-src/src/gridstore/coalesce.rs:tree_coalesce", "rust-src/src/gridstore/coalesce.rs:COALESCE_CHUNK_SIZE"]}
{"id": "C62", "title": "A single phrase match loses only what is worse than all it returns", "statement": "Take a result of the query of a single phrase match whose weighted relevance is less than 0.25 below the best one. coalesce returns a context of the same feature that is at least as good, or it returns 40 contexts all at least as good, or (only if the feature id changes more than 80 times along the results) it returns some contexts, all at least as good, and with a proximity point all strictly better. Good means: higher relevance, then higher score-distance. This holds if the results in another language lie all within the radius of the proximity point or all outside it; otherwise the best result of all can be lost. In both cases the first result is not feature 0 with score-distance 0.", "quantifier": "all stores, phrase matches with weight between 2^-40 and 1, options with and without proximity, hash orders, any number of features", "why_tests_cant": "the cut after 80 features, the cut at 0.25 and the proximity rule interact; the loss needs more than 80 far features of higher score in another language, whose relevance is lowered, before a near one, whose relevance is not", "anchors": ["rust-src/src/gridstore/coalesce.rs:coalesce_single", "rust-src/src/gridstore/store.rs:GridStore::streaming_get_matching"]}
{"id": "C63", "title": "Builds in one directory lie on top of each other", "statement": "After several builds finished one after the other in the same directory, a key reads back as the last build that has this key says, keys() lists the keys of all builds, each once, and the boundaries are those of the last build. Earlier builds are not deleted. Prefix bins are excepted: they can miss entries of earlier builds and return entries that were replaced.", "quantifier": "all numbers of builds, all call histories with scores up to 15, all hash orders", "why_tests_cant": "every test builds in a new directory", "anchors": ["rust-src/src/gridstore/builder.rs:GridStoreBuilder::finish", "rust-src/src/gridstore/store.rs:GridStore::get", "rust-src/src/gridstore/store.rs:GridStore::keys"]}
{"id": "C64", "title": "Searching from JavaScript", "statement": "Called with objects that stand for phrase matches, options and a callback, coalesce and stackAndCoalesce of the bindings hand the callback what the native functions return. In a release build, whatever the arguments, stackAndCoalesce throws or its callback gets a result (the process does not crash), if the stores were written from JavaScript (by any calls, even ones that threw; records below 4 GiB; a radius that is a number; zoom at most 16), the weights are finite and at most one and the zoom of the request is at most 16; so does coalesce unless the array is empty, in which case it panics. The phrase length that decides about the one-letter quota is 1 exactly for phrases of one ASCII character.", "quantifier": "all JavaScript argument values, all histories of builder calls, all ways serde decodes values", "why_tests_cant": "all argument values and call histories; a panic in the worker thread takes the process down", "anchors": ["native/src/gridstore.rs:js_coalesce", "native/src/gridstore.rs:js_stack_and_coalesce", "native/src/gridstore.rs:js_stackable", "native/src/gridstore.rs:deserialize_phrasesubq", "native/src/gridstore.rs:JsGridStore"]}
{"id": "C65", "title": "Histories in which calls fail", "statement": "Whatever calls are made on a builder, including renumber calls that return an error, the finished store answers get(key) for every key from one content: a renumber fails exactly when the map has no new id for some phrase or sends two phrases with the same languages to one id, and then what is left is what lay below the first such key, moved; all other calls act as usual on what is left. From JavaScript the same holds for calls with any arguments, each of which throws and changes nothing or acts as a native call. Matching queries see the same content; with scores above 15 this holds up to the change C05 describes.", "quantifier": "all call sequences, all JavaScript arguments, all hash-map orders, records below 4 GiB; the order of the entries of get for scores at most 15", "why_tests_cant": "unbounded histories with failures at any point", "anchors": ["rust-src/src/gridstore/builder.rs:GridStoreBuilder::renumber", "native/src/gridstore.rs:JsGridStoreBuilder"]}
{"id": "C66", "title": "Phrases and grids indexed from JavaScript stay together", "statement": "If a program inserts phrases into a FuzzyPhraseSetBuilder, appends each phrase's grids to a GridStoreBuilder under the id it got, and then calls grids.renumber(phrases.finish()) and grids.finish(), and no call throws, then get({phrase_id: n, lang_set}) on the store returns exactly the grids that were appended with the phrase getByPhraseId(n) returns and with those languages, and undefined if there were none. No call throws if the phrase index accepts the phrases, gives a phrase the same temporary id each time and no final id is 2^32-1; if it gives a phrase two ids and the phrase has grids with the same languages under both, renumber throws. After finish of the phrase builder, even a failing one, every call throws and changes nothing. Edit distances are clamped to 0..255; a negative phrase id is looked up as 0.", "quantifier": "all phrases, language sets and grids of score at most 15 in any number and order, all phrase indexes that find the phrases they were given, all hash-map orders, records below 4 GiB", "why_tests_cant": "unbounded sequences over two builders and all renumberings", "anchors": ["native/src/fuzzy_phrase.rs:JsFuzzyPhraseSetBuilder", "native/src/fuzzy_phrase.rs:JsFuzzyPhraseSet", "native/src/gridstore.rs:JsGridStoreBuilder", "rust-src/src/gridstore/builder.rs:GridStoreBuilder::renumber"]}
{"id": "C67", "title": "What is indexed from JavaScript is found from JavaScript", "statement": "Take indexes built from JavaScript as in C66 and opened with new GridStore. A query for a phrase or a range of phrases, with a limit of at least the number of items with such a phrase, reports exactly the grids of those items that lie in the box, each with the relevance, language flag, distance and score-distance it should have and no more often than it was given; with a smaller limit it reports nothing else. coalesce with one phrase match returns contexts made from such grids; with at most 80 such items, a grid less than 0.25 below the best one comes back, or one of the same feature that is at least as good, or 40 contexts at least as good, or the items have more than 80 grids and everything that comes back is at least as good. stackAndCoalesce returns contexts put together from indexed grids only, and for indexed grids on a stack of phrase matches, each tile in the one before, it returns a context for grids with the same tiles and features (no less relevant), or 40 contexts that rank before it.", "quantifier": "all items with grids of score at most 15, all phrase indexes that find the phrases they were given, all match objects and options at zooms up to 16, all heaps, merges and hash-map orders; release builds; for one phrase match weights from 2^-40 to 1, results in the language of the query if there is a proximity point and no feature 0 with score-distance 0; for completeness of stacks fewer than 2000 stacks, scan quotas that suffice, at most 100000 items and grids per phrase match and fewer than 800 results", "why_tests_cant": "joins two builders, the record format, queries, the tree and coalescing for inputs of any size", "anchors": ["native/src/gridstore.rs:js_coalesce", "native/src/gridstore.rs:js_stack_and_coalesce", "native/src/fuzzy_phrase.rs:JsFuzzyPhraseSetBuilder", "rust-src/src/gridstore/store.rs:GridStore::get_matching", "rust-src/src/gridstore/coalesce.rs:coalesce", "rust-src/src/gridstore/coalesce.rs:tree_coalesce", "rust-src/src/gridstore/stackable.rs:stackable"]}
{"id": "C68", "title": "The public traversal of the stacking tree lists every stack exactly once", "statement": "`bfs` on the tree made by `stackable`, for any phrase matches and any limit, terminates and lists for each chain of surviving nodes from the root the node at its end, exactly once, the root first and no node before its parent. While the limit on leaves is not reached and no phrase match is given twice, the listed nodes are in one-to-one correspondence with the stacks: each node carries the last phrase match of its stack and the union of its masks. In spite of the name of the function the order is depth-first, from the last child to the first, and not by level.", "quantifier": "All lists of phrase matches, all soft limits, all numbers of rounds from some number on.", "why_tests_cant": "The tests use the traversal to look at a few small trees; that it ends, misses nothing and repeats nothing on every tree is a statement about all phrase matches, including trees with culled nodes.", "anchors": ["rust-src/src/gridstore/stackable.rs:31-48", "rust-src/src/gridstore/stackable.rs:151-262"]}
{"id": "C69", "title": "A phrase match nothing can be put below is not lost by stacking and coalescing", "statement": "stack_and_coalesce handles a phrase match that no other one can be put below apart from the rest: it asks for 80 features only and collects them with the bookkeeping of coalesce_single. Take one of the results of this query that is less than 0.25 below the best of them. Its feature is returned in a context of this phrase match alone, with the match key id and mask it should have, that is at least as good; or 40 contexts of this phrase match are returned that are all at least as good; or the feature id changes more than 80 times along the results and a context of this phrase match is returned that is at least as good, and better if there is a proximity point. The same holds from JavaScript on indexes built from JavaScript, with the indexed grids in place of results when at most 80 items have the phrase asked for. This is the case that C56 and C67 leave out.", "quantifier": "all phrase matches with one match key and an id of their own, fewer than 2000 stacks, scan quotas that suffice, fewer than 800 results, stores written by the builder, weights from 2^-40 to 1, results in the language of the query if there is a proximity point, first result not feature 0 with score-distance 0; all heaps and merges; debug and release builds (release from JavaScript)", "why_tests_cant": "needs the queue of steps, the quotas, the cache and two bounded queues to work together for any number of phrase matches and results", "anchors": ["rust-src/src/gridstore/coalesce.rs:tree_coalesce", "rust-src/src/gridstore/coalesce.rs:tree_coalesce_single", "rust-src/src/gridstore/coalesce.rs:stack_and_coalesce", "native/src/gridstore.rs:js_stack_and_coalesce"]}
{"id": "C70", "title": "What a debug build returns, a release build returns too", "statement": "If a query, coalesce, tree_coalesce or stack_and_coalesce returns in a build with overflow checks and debug assertions, it returns the same in a build without. From JavaScript the two builds throw for the same arguments, and the callback of a release build gets what that of a debug build gets unless the debug build crashed. So tests run in a debug build say what a release build does; the converse fails: a release build answers requests at which a debug build panics. For the requests of C60 both return, and the same.", "quantifier": "all stores (also damaged ones), requests, options, hash orders, heaps and JavaScript arguments", "why_tests_cant": "the tests run in one kind of build; wrapping arithmetic in the other kind shows only on rare inputs", "anchors": ["rust-src/src/gridstore/coalesce.rs:coalesce", "rust-src/src/gridstore/coalesce.rs:tree_coalesce", "rust-src/src/gridstore/store.rs:GridStore::streaming_get_matching", "rust-src/src/gridstore/common.rs:MatchOpts::adjust_to_zoom", "native/src/gridstore.rs:js_coalesce"]}
{"id": "C71", "title": "A store can be copied", "statement": "Iterate a store and write every record read into a new builder, with insert or append and in any order, load the store's boundaries in ascending order, and finish: the new database is the old one, byte for byte. From JavaScript the same holds for a walk of the key iterator with get for every key it yields. For histories with scores above 15 or empty tile lists, where bytes can differ, the copy still has the same keys and get returns the same entries. In general the bytes written depend only on the boundaries and on the entries kept for each key after rounding.", "quantifier": "all histories of builder calls with non-empty tile lists, scores at most 15 and ascending boundaries (any history for the statement about reading); records below 4 GiB; all orders of copying; all hash orders of both builders", "why_tests_cant": "needs the encoder, the decoder, the key codec and the order of hash maps to fit together for every content", "anchors": ["rust-src/src/gridstore/store.rs:GridStore::iter", "rust-src/src/gridstore/store.rs:GridStore::keys", "rust-src/src/gridstore/builder.rs:GridStoreBuilder::insert", "rust-src/src/gridstore/builder.rs:GridStoreBuilder::append", "rust-src/src/gridstore/builder.rs:GridStoreBuilder::finish", "native/src/gridstore.rs:JsGridKeyStoreKeyIterator"]}
{"id": "C72", "title": "Whatever builders leave in a directory can be read", "statement": "Let any number of builders write into one directory, one after the other, each stopped at any point of finish: interrupted, failed, never ending or finished. A store opened there lists keys with their entries, each key once; get of a listed key returns those entries and get of any other key returns nothing. A query that is not answered from prefix bins returns, up to order, exactly what it asks for of the listing, if its limit is at least the number of keys. Every query returns. If the last build stops early, every key reads as before that build or as after the whole of it.", "quantifier": "all sequences of builders, all builder contents, all points at which each stops, all hash orders, all queries; records below 4 GiB", "why_tests_cant": "crash points and leftovers of earlier builds combine without bound", "anchors": ["rust-src/src/gridstore/builder.rs:GridStoreBuilder::finish", "rust-src/src/gridstore/store.rs:GridStore::new", "rust-src/src/gridstore/store.rs:GridStore::get", "rust-src/src/gridstore/store.rs:GridStore::keys", "rust-src/src/gridstore/store.rs:GridStore::iter", "rust-src/src/gridstore/store.rs:GridStore::streaming_get_matching"]}
{"id": "C73", "title": "A store dumped to text and loaded from it is the same store", "statement": "dump_db_to_json writes two text files, load_db_from_json builds a store from them. If the file system takes every write whole, dumping a store and loading the text into an empty directory gives the same database, byte for byte. For whatever builders have left in a directory, loading returns unless there is a phrase 4294967295, and the loaded store lists the same keys in the same order with the same entries, and has the same boundaries. The file with the boundaries is never the file with the records. A write that is taken only in part is not noticed: the dump is whole if and only if no record of 8192 characters or more is cut.", "quantifier": "all histories of builder calls with non-empty tile lists, scores at most 15 and ascending boundaries (any directory builders left, for the statement about reading); records below 4 GiB; every JSON library that reads what it prints; all hash orders; all paths; all partial writes", "why_tests_cant": "the test helpers are used on a few small fixtures; long records and partial writes do not occur there", "anchors": ["test_utils/src/lib.rs:dump_db_to_json", "test_utils/src/lib.rs:load_db_from_json", "rust-src/src/gridstore/store.rs:GridStore::iter", "rust-src/src/gridstore/builder.rs:GridStoreBuilder::insert"]}
{"id": "C74", "title": "JavaScript gets what Rust returned", "statement": "All numbers in what coalesce and stackAndCoalesce return for a request from JavaScript are within their Rust types, so the value the callback gets has them unchanged under the documented property names, and two searches give the same value only if Rust returned the same result. get returns undefined for a key nothing is stored under, and otherwise an array with the fields of the stored entries, best first, that insert and append accept as the same entries: the script that appends, for each key of keys(), what get returns for it, then loads the boundaries and calls finish, writes the same database again, byte for byte, and no call throws.", "quantifier": "all requests on stores written from JavaScript, all stores holding bytes; for the script: all histories of builder calls with non-empty lists, scores at most 15 and ascending boundaries, records below 4 GiB, all hash orders", "why_tests_cant": "the binding tests compare a few fixed results", "anchors": ["native/src/gridstore.rs:CoalesceTask::complete", "native/src/gridstore.rs:StackAndCoalesceTask::complete", "native/src/gridstore.rs:JsGridStore::get", "rust-src/src/gridstore/common.rs:CoalesceContext"]}
{"id": "C75", "title": "Giving up slow scans never costs the best results", "statement": "stack_and_coalesce gives up a scan it considers potentially slow and not worth it. When the scan quotas are enough and all weights are positive, that never costs a context with more than three quarters of the best relevance returned: hits on a stack whose tiles lie in each other come back as a context, or 40 contexts that rank before it do, or the last of them is in an index of zoom 14 or more, for exactly one token and a range of more than one phrase, nothing can be put below it, and a context comes back such that no context of these hits has more than 0.75 times its relevance. For a phrase match that stands alone, its weight is at most 0.75 times the relevance of a context that comes back.", "quantifier": "all phrase matches, requests, hash orders, heaps and spatial indexes with fewer than 2000 stacks, zooms ascending with the type (or a debug build) and fewer than 800 contexts; the JavaScript form: all such requests on stores built from JavaScript", "why_tests_cant": "whether a scan is tried depends on what was found by all earlier rounds; a test sees one order of rounds", "anchors": ["rust-src/src/gridstore/coalesce.rs:tree_coalesce", "rust-src/src/gridstore/coalesce.rs:KeyFetchStep", "rust-src/src/gridstore/coalesce.rs:stack_and_coalesce"]}
{"id": "C76", "title": "A full list of results costs little", "statement": "tree_coalesce stops early once it has 800 contexts, and never returns more. When the scan quotas are enough and all weights are positive, hits on a stack whose tiles lie in each other come back as a context also when the list is full, unless one of the exceptions of C56 and C75 holds, or 800 contexts come back and none of them has less relevance than a context of these hits, or 800 contexts come back and the stack is one of at most seven stacks with something put below, the same seven for the whole run. So a phrase match that stands alone, and any single phrase match, is only missed if nothing that comes back has less relevance. The exception for seven stacks is needed: there is a request where the best context of all is lost that way.", "quantifier": "all phrase matches, requests, hash orders, heaps and spatial indexes with fewer than 2000 stacks and zooms ascending with the type (or a debug build), any number of results; the JavaScript forms: all such requests on stores built from JavaScript", "why_tests_cant": "the list is full only after many rounds, and what is lost depends on the chunk that was being worked on; a test has to know what would have been found", "anchors": ["rust-src/src/gridstore/coalesce.rs:tree_coalesce", "rust-src/src/gridstore/coalesce.rs:ConstrainedPriorityQueue", "rust-src/src/gridstore/coalesce.rs:stack_and_coalesce"]}
{"id": "C77", "title": "The bytes of a store", "statement": "After any history of builder calls finish leaves exactly these rows: for every phrase and set of languages written, a row of kind 0 with the record of its entries; with ascending boundaries, for every bin and set of languages some phrase falls into, a row of kind 1 with the record of all entries of these phrases; and the boundaries. Keys, records and boundaries are described by the digits of numbers in bytes (big endian ids in keys, little endian fixed-width numbers, base-128 counts) and the bits of tile numbers, without the functions that write or read them. Conversely, any store laid out by that description, whoever wrote it, is read right: get gives the entries the numbers of the record stand for, in order; opening finds the boundaries; keys and iter list every phrase once; queries never panic and report what iter lists.", "quantifier": "all builder histories with records under 4 GiB; for reading: all databases laid out as described, also with other widths of pointers, other places for the lists or unused bytes", "why_tests_cant": "a round trip does not notice when writer and reader change together, and stores written by other releases must stay readable", "anchors": ["rust-src/src/gridstore/builder.rs:GridStoreBuilder::finish", "rust-src/src/gridstore/gridstore_format.rs", "rust-src/src/gridstore/common.rs:GridKey::write_to", "rust-src/src/gridstore/store.rs:GridStore::get"]}
{"id": "C78", "title": "Scan quotas cost only what counts against them", "statement": "tree_coalesce stops making scans of a kind once the quota of that kind is spent: 8 for one letter, 40 for one word, 8 for one word at zoom 14 or more, 40 for ranges at zoom 14 or more, 600 at zoom 14 or more. A stack is not affected by quotas that none of its own scans count against. If for each scan on the stack the quotas it counts against are enough for all stacks, then hits whose tiles lie in each other come back, with the exceptions of C56, C75 and C76 only, whatever other quotas are spent. Where no scan on the stack is for one token over a range of more than two phrases or at zoom 14 or more, nothing needs to be assumed about quotas at all. The condition is needed: after eight one-letter searches that find nothing, a ninth that would find something is not made and nothing is returned.", "quantifier": "all phrase matches, requests, hash orders, heaps and spatial indexes with fewer than 2000 stacks", "why_tests_cant": "five counters shared by all stacks of a request are advanced in an order given by a heap; a test sees one order", "anchors": ["rust-src/src/gridstore/coalesce.rs:tree_coalesce"]}
{"id": "C79", "title": "The limit of stacks costs only what 2000 others are as good as", "statement": "stackable keeps about 2000 stacks. With any number of stacks, hits on a stack whose tiles lie in each other come back from stack_and_coalesce with the exceptions of C78, or there are 2000 stacks of the same phrase matches, none of which begins with another one, that are all at least as relevant as this one, up to rounding (2^-41). The same holds for a phrase match that stands alone. Everything that comes back is a context over a stack of phrase matches; or a single phrase match taken as if nothing could go below, though something could, and then again 2000 stacks are at least about as relevant. Where fewer than 2000 stacks are complete there are never 2000 such stacks, so C56 and C78 are special cases. The exception is needed: with 2000 phrase matches of weight 0.45 that find nothing, a street in a region with weights 0.1 and 0.2 is lost and nothing comes back.", "quantifier": "all phrase matches with weights from 0 to 1 and at most 62 types, any number of stacks, all requests, hash orders, heaps and spatial indexes, zooms ascending with the type (or a debug build); the JavaScript forms: all such requests on stores built from JavaScript", "why_tests_cant": "the limit is only reached with thousands of stacks, and which ones are dropped depends on the order they are made in and on rounding", "anchors": ["rust-src/src/gridstore/stackable.rs:stackable", "rust-src/src/gridstore/stackable.rs:ArenaManager", "rust-src/src/gridstore/coalesce.rs:stack_and_coalesce"]}
{"id": "C80", "title": "No context is returned twice", "statement": "No two contexts returned by stack_and_coalesce are made of the same tiles and features for the same match keys, whatever the scan quotas, the limit of stacks and the limit of results have cut off. The same holds for tree_coalesce on a tree of phrase matches in which no match key id occurs twice. The condition is needed: when a phrase match is handed over twice, contexts come back twice.", "quantifier": "all phrase matches delivered with one match key each and ids of their own, all requests, hash orders, heaps and spatial indexes", "why_tests_cant": "a context could come up again on another path of the tree, in another round of the search, from the grid cache or from two records of one index; a test sees a few trees", "anchors": ["rust-src/src/gridstore/coalesce.rs:tree_coalesce", "rust-src/src/gridstore/coalesce.rs:stack_and_coalesce", "rust-src/src/gridstore/coalesce.rs:tree_coalesce_single"]}
{"id": "C81", "title": "A small request returns exactly what it should, in whatever order phrase matches come", "statement": "Nothing is returned by stack_and_coalesce but the contexts of hits on stacks whose tiles lie in each other, each grid the first result of its index with that tile and feature, and the contexts tree_coalesce_single makes of the first 80 results for a phrase match nothing can be put below. When fewer than 800 contexts come back and fewer than 40 for each match key at the lowest level, the scan quotas are enough for all stacks, and the bounding boxes of the indexes contain what they should, all of these come back, each exactly once. So the order in which phrase matches are handed over makes no difference: the same contexts come back, with the same relevances, scores, indexes, tiles and features at each position of the list. Neither do the order in which the heaps break ties or how the spatial index lists what it finds.", "quantifier": "all phrase matches delivered with one match key each and ids of their own, fewer than 2000 stacks, zooms ascending with the type, all requests, stores, heaps and spatial indexes; the JavaScript form: all such requests on stores built from JavaScript, the array in any order", "why_tests_cant": "tests compare a few lists of results; that nothing is missing, nothing extra and nothing twice in any order of the phrase matches is a statement about all of them", "anchors": ["rust-src/src/gridstore/coalesce.rs:stack_and_coalesce", "rust-src/src/gridstore/coalesce.rs:tree_coalesce", "rust-src/src/gridstore/coalesce.rs:collapse_phrasematches", "native/src/gridstore.rs:js_stack_and_coalesce"]}
{"id": "C82", "title": "The order of a stack makes no difference to coalesce", "statement": "coalesce returns the same list for every order of the stack, provided that no two phrase matches have both zoom and index number in common; if it panics for one order it does for all. With index numbers all different and masks not 0 the orders of the hash maps make no difference either. The condition is needed: with two phrase matches of one index at one zoom the order decides which of them is penalized and so which comes back.", "quantifier": "all stacks, requests, stores, heaps, mergers and hash orders, with and without overflow checks", "why_tests_cant": "tests use one order of each stack", "anchors": ["rust-src/src/gridstore/coalesce.rs:coalesce", "rust-src/src/gridstore/coalesce.rs:coalesce_multi"]}
{"id": "C83", "title": "A query depends only on the phrases it asks for", "statement": "Two stores whose histories leave the same sets of entries under the phrases a query asks for give the same answer to it: get returns the same list, streaming_get_matching the same results in the same order, coalesce the same contexts, and stack_and_coalesce on small requests (as in C81) the same contexts in the same ranks. What is stored under other phrases, in which order things were appended, the orders of hash maps and, for a query of one phrase, the boundaries of prefix bins make no difference. A range from boundary to boundary, read through prefix bins, asks for the phrases before the first boundary too if it starts there; this really happens.", "quantifier": "all histories of builder calls, keys, options, limits, mergers, heaps and hash orders, with and without overflow checks; boundaries in order (repetition allowed) for ranges read through bins", "why_tests_cant": "tests look at small stores; interference between phrases (keys that sort between others, bins that overlap, records that share bytes) is about all pairs of histories", "anchors": ["rust-src/src/gridstore/store.rs:streaming_get_matching", "rust-src/src/gridstore/store.rs:get", "rust-src/src/gridstore/builder.rs:finish", "rust-src/src/gridstore/coalesce.rs:coalesce", "rust-src/src/gridstore/coalesce.rs:stack_and_coalesce"]}
{"id": "C84", "title": "coalesce keeps up with stack_and_coalesce on stacks of several phrase matches", "statement": "Whenever stack_and_coalesce returns a context with two or more entries, then coalesce, called with just the phrase matches of that context (one match key each, not limited to nearby, sorted alike by zoom and index), finds a context for the same feature with the same mask and the same number of entries, each of whose entries is at least as relevant as the corresponding one. Its relevance is not lower than that of the first one by more than the ordering penalty of 0.01 (for two phrase matches: not lower at all), up to 2^-38 for rounding. coalesce returns that context, unless it returns one for the same feature that does not rank behind it, or 40 contexts that do not rank behind it, or the context is at least 0.25 below another consistent context.", "quantifier": "for all indexes, requests, options, hash map orders, heaps and merge orders", "why_tests_cant": "The two functions share no loop: one walks a tree of phrase matches level by level with a hash map of tiles, the other one walks the sorted stack and absorbs the contexts of all tiles around. Tests compare them on a few handmade stacks; that they agree on arbitrary nests of tiles, ties of zooms and repeated grids needs an invariant over the hash map of contexts.", "anchors": ["rust-src/src/gridstore/coalesce.rs:coalesce_multi", "rust-src/src/gridstore/coalesce.rs:coalesce", "rust-src/src/gridstore/coalesce.rs:tree_coalesce", "rust-src/src/gridstore/coalesce.rs:stack_and_coalesce"]}
{"id": "C85", "title": "A search keeps to its box and measures from its point", "statement": "A query with a bounding box returns only tiles in the box; with a proximity point, distance and scoredist of every result are the ones of its tile from that point, without one they are 0 and the score. In the contexts of coalesce and stack_and_coalesce, every entry's tile (at the zoom of its index) has ground in common with the box of the request (at the zoom of the request), lies wholly within it if the index's zoom is not lower, and has the distance and scoredist measured from the tile that stands for the request's point at the index's zoom; entries of match keys marked nearby_only lie within the nearby padding of that tile. The box used at the index's zoom has exactly the tiles that have ground in common with the request's box. coalesce of one phrase match needs a request at the zoom of the index; the code only asserts this in debug builds, and without the assertion results from elsewhere come back.", "quantifier": "all databases (any bytes), keys, limits, stacks and requests, mergers, heaps and hash orders, with and without overflow checks; for contexts: options valid at their zoom, zooms up to 16 and less than 16 apart", "why_tests_cant": "the box passes through a zoom conversion per index, a search along the z-order curve and a merge of several streams; tests have a few boxes on a few tiles", "anchors": ["rust-src/src/gridstore/spatial.rs:bbox_filter", "rust-src/src/gridstore/spatial.rs:bbox_proximity_filter", "rust-src/src/gridstore/store.rs:decode_matching_value", "rust-src/src/gridstore/common.rs:MatchOpts::adjust_to_zoom", "rust-src/src/gridstore/coalesce.rs:coalesce", "rust-src/src/gridstore/coalesce.rs:stack_and_coalesce"]}
{"id": "C86", "title": "A box matters only through the stored tiles in it", "statement": "Two requests with the same proximity point and zoom whose bounding boxes take in the same stored tiles are answered alike, where no box counts as a box around everything. streaming_get_matching returns the same results in the same order, or panics for both, if the boxes contain the same tiles of the store's records. coalesce returns the same list if the boxes have ground in common with the same stored tiles of every index of the stack (for a single phrase match: at the zoom of its index). stack_and_coalesce on small requests (as in C81) returns the same contexts in the same ranks, also for match keys marked nearby_only. So drawing a box wider over ground where nothing is stored, or leaving out a box that contains everything, changes nothing.", "quantifier": "all stores laid out as in C77, keys, limits, stacks, options valid at their zoom, mergers, heaps and hash orders; stack_and_coalesce without overflow checks", "why_tests_cant": "filtering by a box takes different code from not filtering (a search along the z-order curve between the corners, then a merge of two streams), and a test compares a box with a handful of results, not with all other boxes", "anchors": ["rust-src/src/gridstore/spatial.rs:bbox_filter", "rust-src/src/gridstore/spatial.rs:bbox_proximity_filter", "rust-src/src/gridstore/spatial.rs:proximity", "rust-src/src/gridstore/store.rs:decode_matching_value", "rust-src/src/gridstore/coalesce.rs:coalesce", "rust-src/src/gridstore/coalesce.rs:stack_and_coalesce"]}
{"id": "C87", "title": "The numbers of phrases are only names", "statement": "A GridStoreBuilder on which renumber succeeds holds what it would hold if every earlier insert, append and compact_append had been made with the new phrase ids from the start; renumbering twice is renumbering once by the composed map (and succeeds exactly when that does); renumbering back gives the builder back. After finish, a query for a phrase under its new id returns exactly what a query for it under its old id returns in the store built without renumber (same results, same order, same panics), provided no other phrase was sent to that id; a query for a range of phrases not read through bins likewise, if the phrases keep their order; and coalesce of a stack whose match keys name the phrases by the new ids returns the same list, and stack_and_coalesce of such a request (small enough for its quotas, boxes containing what is stored, no range made wide) the same contexts with the same ranks. renumber does not refuse to send two phrases to one id when their language sets differ: then both are found under it.", "quantifier": "all well-formed builders, maps, histories of calls, hash orders, queries, limits, mergers, heaps and stacks", "why_tests_cant": "the test of renumber moves a few phrases once; that the new ids make no difference to rows, bins of languages, order of results and searches is a statement about every map and every pair of stores", "anchors": ["rust-src/src/gridstore/builder.rs:renumber", "rust-src/src/gridstore/builder.rs:append", "rust-src/src/gridstore/builder.rs:finish", "rust-src/src/gridstore/store.rs:streaming_get_matching", "rust-src/src/gridstore/coalesce.rs:coalesce"]}
{"id": "C88", "title": "Another phrase match takes nothing away", "statement": "When phrase matches are added to a request to stack_and_coalesce that stays small (fewer than 2000 maximal stacks, scan quotas not used up, fewer than 800 results and fewer than 40 for each match key, index boxes covering their grids), every context returned before is returned again, unchanged, unless it is a result of a phrase match that nothing could be put below before and something can now. Even then, if fewer than 100000 grids answer its match key, the same feature on the same tile still comes back by itself, at 0.01 less than its own weighted relevance. The exception is real: a region alone changes when a street is added. A query returns with a limit everything it returns with a smaller one, if the greater limit is not used up.", "quantifier": "all requests qs and qs' with every member of qs in qs', all options, stores, mergers, heaps and spatial indexes; also for the request as it arrives from JavaScript", "why_tests_cant": "it relates two runs on different trees: the added phrase match changes the shape of the tree, which keys are fetched singly, the order of the scan and the limits used; tests compare fixed requests with fixed results", "anchors": ["rust-src/src/gridstore/coalesce.rs:tree_coalesce", "rust-src/src/gridstore/coalesce.rs:stack_and_coalesce", "rust-src/src/gridstore/stackable.rs:stackable", "rust-src/src/gridstore/store.rs:streaming_get_matching", "native/src/lib.rs:stack_and_coalesce"]}
{"id": "C89", "title": "Nothing is returned that was not written", "statement": "For a store opened on a database that any builder calls (whether they returned errors or not) and finish left behind: every result of a query, with any options and any limit, from single phrases or from prefix bins, reports an entry that the calls wrote and did not overwrite or lose, as it is stored (same tile, feature, source hash and score; relevance as stored, or 96 percent of it if the language does not match), under a key whose languages decide the language flag and, if the query is not answered from prefix bins, whose phrase is asked for. Every entry of every context of coalesce and stack_and_coalesce is such a report with the relevance weighted. Consequently, if the boxes an index was opened with contain the tiles written to it, they hide nothing, and a small request returns exactly what it should; for the stores of the tests (create_store) the global box does for zooms up to 16.", "quantifier": "all histories of builder calls, hash map orders, stores, match keys, options, limits, requests, mergers and heaps", "why_tests_cant": "tests look for the results they expect in a few small stores; that no result is ever invented, mixed from two entries or taken from a neighbouring key is about all stores and all options", "anchors": ["rust-src/src/gridstore/store.rs:streaming_get_matching", "rust-src/src/gridstore/store.rs:decode_matching_value", "rust-src/src/gridstore/builder.rs:finish", "rust-src/src/gridstore/coalesce.rs:stack_and_coalesce", "rust-src/src/gridstore/coalesce.rs:coalesce", "test_utils/src/lib.rs:create_store"]}
{"id": "C90", "title": "Lists of languages mean the same to the tests and to the bindings", "statement": "For language ids below 128, langarray_to_langfield of the test helpers, in either build, and langarray_to_langset of the bindings give the same set: exactly the languages listed. Beyond, they differ: the bindings ignore the id, the helper panics with overflow checks, and without them takes the id modulo 128.", "quantifier": "all lists of language ids", "why_tests_cant": "the tests of the native code use the helper and the tests of the bindings use the other function, nothing compares them", "anchors": ["test_utils/src/lib.rs:langarray_to_langfield", "native/src/gridstore.rs:langarray_to_langset"]}
{"id": "C91", "title": "Exactly what is returned, whatever the bounding boxes of the indexes say", "statement": "For small requests (fewer than 2000 stacks, quotas that are enough, fewer than 800 contexts returned and fewer than 40 per lowest match key), stack_and_coalesce returns exactly these contexts, each once: those of phrase matches that stand alone, and those put together from hits whose tiles lie in each other on a stack that is not cut. A stack is not cut if, for each phrase match in it below the first, there are hits on phrase matches like those above it (any hits, not only those the context is made of) that end in a tile which a bounding box of its index meets when rounded outwards to that zoom. So a wrong box can hide results or not, depending on other features; where boxes contain everything that answers, nothing is cut and C81 follows; and making boxes wider never takes a result away while the list stays short. For requests of any size, hits on a stack that is not cut are missed only for the reasons of C79.", "quantifier": "all small requests over all stores with any bounding boxes; C91_any for all requests whose quotas are enough", "why_tests_cant": "the tests use boxes around everything; which wrong boxes hide which results depends on all other features of the indexes above", "anchors": ["rust-src/src/gridstore/coalesce.rs:tree_coalesce", "rust-src/src/gridstore/coalesce.rs:stack_and_coalesce", "rust-src/src/gridstore/store.rs:GridStore::bboxes"]}
{"id": "C92", "title": "Asking for more languages takes nothing away and lowers nothing", "statement": "If one query asks for all the languages another asks for (and maybe more), it returns the same entries, and each has at least the relevance it had: an entry either matches a language in both cases, or is cut to 96 percent in both, or is cut in the first and not in the second. Without a proximity point the results of the two queries compare place by place. For small stack_and_coalesce requests the same holds of contexts: a context of the first request comes back from the second with the same tiles, features and phrase matches and at least the same relevance, in the whole and in each part; and the second request returns no context that the first did not return with at most that relevance. Left out are contexts of one phrase match that nothing can be put below: of these only 40 are kept per match key, and a feature can lose its place to others in the new languages.", "quantifier": "all stores the builder leaves, all queries and language sets; all small requests (release build) for searches", "why_tests_cant": "tests compare single language sets; monotonicity speaks of all pairs of them and of all content", "anchors": ["rust-src/src/gridstore/store.rs:GridStore::streaming_get_matching", "rust-src/src/gridstore/common.rs:MatchKey::matches_language", "rust-src/src/gridstore/coalesce.rs:stack_and_coalesce"]}
{"id": "C93", "title": "Indexing more takes nothing away and lowers nothing", "statement": "If one index holds everything another holds under each key, and maybe more, every result of a query on the smaller one (exact or range, with at least as many results allowed as there are rows; if the range is answered from prefix bins, both indexes must have the same boundaries, in order) is a result of the same query on the larger one, with the same relevance, score-distance and language flag. For small stack_and_coalesce requests over indexes that grow (with bounding boxes that cover the old ones), every context comes back with the same tiles, features and phrase matches and at least the same relevance, in the whole and in each part. Left out are contexts of one phrase match that nothing can be put below: of these only 40 are kept per match key, and features with higher scores can take all places.", "quantifier": "all pairs of stores the builder leaves, all queries; all small requests (release build) for searches", "why_tests_cant": "tests build one index each; this compares any index with any larger one", "anchors": ["rust-src/src/gridstore/builder.rs:GridStoreBuilder::append", "rust-src/src/gridstore/store.rs:GridStore::streaming_get_matching", "rust-src/src/gridstore/coalesce.rs:stack_and_coalesce"]}
{"id": "C94", "title": "Nothing is looked up again", "statement": "During one stackAndCoalesce a match key is looked up in its GridStore at most once to be put together with others (with limit 100000), however many stacks it is part of, and at most once on its own (with limit 80); nothing is looked up that is not a match key of the request in the store it was given with. So a request of n phrase matches makes at most 2n lookups, though it may make up to 2000 stacks. For the first part nothing is assumed of the tree given to tree_coalesce, not even that its match keys have different ids.", "quantifier": "all stacking trees; all requests as delivered by fuzzy phrase matching (one match key each, ids of their own); all stores, options, heaps and bushes; with and without overflow checks", "why_tests_cant": "a second lookup returns the same data, so results never show it; the number of lookups depends on the shape of the tree, on the order in which steps are taken from the heap and on how they fall into chunks of eight", "anchors": ["rust-src/src/gridstore/coalesce.rs:tree_coalesce", "rust-src/src/gridstore/coalesce.rs:stack_and_coalesce"]}
{"id": "C95", "title": "A heavier phrase match ranks no lower", "statement": "If phrase matches of a small stack_and_coalesce request are given more weight and nothing else changes, every context comes back with the same tiles, features and phrase matches and at least its relevance, in the whole and in each part, and no context of other parts appears. A context all of whose phrase matches keep their weight comes back unchanged, whether the others got more or less. So a context never falls behind one of less relevance that has none of the phrase matches that were raised. Weights may be raised one by one, also within a group of phrase matches that were put together because index, mask and weight were the same. Left out are contexts of one phrase match that nothing can be put below, of which only 40 are kept per match key.", "quantifier": "all small requests with positive weights and bounding boxes that cover what is found, all pairs of weights; with and without overflow checks; all heaps and bushes", "why_tests_cant": "weights decide the order of phrase matches in a bin, the grouping of phrase matches, the order of steps and which stacks are cut; tests use a few fixed weights", "anchors": ["rust-src/src/gridstore/coalesce.rs:stack_and_coalesce", "rust-src/src/gridstore/coalesce.rs:collapse_phrasematches", "rust-src/src/gridstore/stackable.rs:binned_stackable", "rust-src/src/gridstore/common.rs:PhrasematchSubquery"]}
{"id": "C96", "title": "Moving the map moves the results", "statement": "If every entry of an index is moved to another tile by one motion of the map (shifting it, mirroring it, turning it by right angles, or all of them, with all tiles staying within 16 bits), and the bounding box and the proximity point of a query are moved alike, the query returns the same results, moved: relevance, score, distance, score-distance, source, feature and language flag are unchanged, and nothing is added or missing. The order tiles are stored in (z-order) and the box search over them do not commute with such motions, but what is found does. If all indexes and the request are moved by the same whole number of tiles of some zoom no greater than theirs, stackAndCoalesce returns the same contexts at the moved tiles: the same features by the same match keys with the same relevances, and none besides them. The exception is contexts of one phrase match nothing can be put below: of equal features the first 80 along the curve are looked at, and moving changes that order.", "quantifier": "all motions, all contents a builder can leave, all exact and range queries (from prefix bins too, with boundaries in order) with a limit of at least the number of rows; with and without overflow checks; for searches, all moves by whole tiles that keep box, point and content on the map, lists of phrase matches as delivered, bounding boxes of indexes that contain their answers, nearby-only keys at zoom 15 or less, fewer contexts than the limits of 800 and 40 and no lookup with over 100000 answers, without overflow checks", "why_tests_cant": "tests look at fixed tiles; a slip in one of x and y, in an edge of the box or at a corner of the z-order curve shows only for some of them", "anchors": ["rust-src/src/gridstore/spatial.rs:bbox_proximity_filter", "rust-src/src/gridstore/spatial.rs:bbox_filter", "rust-src/src/gridstore/spatial.rs:tile_dist", "rust-src/src/gridstore/store.rs:GridStore::streaming_get_matching", "rust-src/src/gridstore/common.rs:MatchOpts::adjust_to_zoom", "rust-src/src/gridstore/coalesce.rs:stack_and_coalesce"]}
{"id": "C97", "title": "Ids are labels", "statement": "If the ids of the features and sources of an index are changed in any way that keeps feature ids within 24 bits, every query returns the same results with the new ids: relevance, score, tile, distance, score-distance and language flag are unchanged, and nothing is added or missing. Ids decide how entries are grouped and ordered in records and which of two equal results comes first, but not what is found. Two ids may become one. If feature ids are changed one to one, index by index, stackAndCoalesce returns the same contexts with the new ids: the same tiles by the same match keys with the same relevances, and none besides them. The exception is contexts of one phrase match nothing can be put below: of these 40 are kept, and among equal scores ids decide which.", "quantifier": "all changes of ids, all contents a builder can leave, all exact and range queries (from prefix bins too, with boundaries in order) with a limit of at least the number of rows; with and without overflow checks; for searches, all changes that are one to one on ids of 24 bits, lists of phrase matches as delivered, with fewer contexts than the limits of 800 and 40 and no lookup with over 100000 answers, without overflow checks", "why_tests_cant": "tests use small consecutive ids; records group ids by tile, score and relevance and compress runs, so a slip shows only for some values", "anchors": ["rust-src/src/gridstore/builder.rs:get_encoded_value", "rust-src/src/gridstore/store.rs:decode_value", "rust-src/src/gridstore/store.rs:GridStore::streaming_get_matching", "rust-src/src/gridstore/stackable.rs", "rust-src/src/gridstore/coalesce.rs:stack_and_coalesce"]}
{"id": "C98", "title": "Better entries rank no lower", "statement": "If every entry of the indexes is replaced by one for the same phrase, tile and feature that has at least its relevance and score, and is stored for at least its languages (or is left as it is), a query returns for every result it returned one for the same tile and feature with no less relevance, score and score-distance, which is in the languages asked for if the first one was. And every context of several phrase matches that stackAndCoalesce returned comes back with the same tiles, features and phrase matches and no less relevance. What rises never pushes out what it belongs to.", "quantifier": "all contents a builder can leave, all exact and range queries (from prefix bins too, with boundaries in order) with a limit of at least the number of rows; all requests within the limits of C91, for contexts that are not of one phrase match alone", "why_tests_cant": "relevance, score, language and order of rows interact in the scan, in the choice of the first result of a tile and in the grouping; tests look at a few combinations", "anchors": ["rust-src/src/gridstore/store.rs:GridStore::streaming_get_matching", "rust-src/src/gridstore/coalesce.rs:tree_coalesce", "rust-src/src/gridstore/spatial.rs:scoredist"]}
{"id": "C99", "title": "Prepared requests are what the file says", "statement": "What prepare_phrasematches and prepare_stackable_phrasematches return are the requests in the non-empty lines of the file, in order, with their options, and with one phrase match per placeholder, in order, with its fields. Its store is the index of the placeholder's path, opened with what the first placeholder of the file with that path says. An index that is there already is left as it is, any other is loaded from its two files; one that was dumped there is opened byte for byte as it was built. (Findings: a later placeholder with the same path and other options is given the first one's options without a word; the boundaries of an index not named \u2026.gridstore.rocksdb are read from the file with its records.)", "quantifier": "all files, all placeholders, all indexes already there, both ways of opening; names without further dots or slashes", "why_tests_cant": "the benchmarks use what is prepared and check none of it", "anchors": ["test_utils/src/lib.rs:prepare_phrasematches", "test_utils/src/lib.rs:prepare_stackable_phrasematches", "test_utils/src/lib.rs:ensure_store"]}
{"id": "C100", "title": "A wider box takes nothing away, and adds only what lies outside", "statement": "If one request asks for all the ground another one asks for and is otherwise the same, a query finds in the smaller box exactly what it finds in the wider one less what lies outside. And every context of several phrase matches that stackAndCoalesce returns for the smaller box it returns for the wider one, with the same tiles, features, match keys and relevances; the other way round for contexts whose smallest tile has ground in the smaller box. (Not so for contexts of one phrase match nothing can be put below: only 40 are returned, and in the wider box 40 others may rank higher.)", "quantifier": "all stores that read back, all exact and range queries, from prefix bins too, with a limit of at least the number of rows; all valid requests within the limits of C91, with or without a point and a box, for phrase matches of any zooms", "why_tests_cant": "boxes are scaled to the zoom of each index, cut to the square of nearby-only keys, and used to skip parts of records; tests compare few boxes", "anchors": ["rust-src/src/gridstore/common.rs:MatchOpts::adjust_to_zoom", "rust-src/src/gridstore/spatial.rs:bbox_filter", "rust-src/src/gridstore/coalesce.rs:tree_coalesce"]}
{"id": "C101", "title": "A point takes nothing away and lowers no relevance", "statement": "A query with a point returns the same entries in the same languages as the query without it; no relevance is lower, and the relevance of an entry in the languages asked for is the same. And every context of several phrase matches that stackAndCoalesce returns without the point it returns with it, with the same tiles, features and match keys and no less relevance, if no match key is for nearby features only; and a context of several phrase matches that comes back with the point also comes back without it, with no more relevance, whatever the match keys are. (Not so for contexts of one phrase match nothing can be put below: only 40 are returned, and with the point 40 others may rank higher.)", "quantifier": "all stores that read back, all exact and range queries, from prefix bins too, with a limit of at least the number of rows; all valid requests within the limits of C91, any point, with or without a box, for phrase matches of any zooms", "why_tests_cant": "the point changes the order of records, features and contexts, the penalty for other languages and the tiles looked up for nearby-only keys; tests compare few points", "anchors": ["rust-src/src/gridstore/store.rs:streaming_get_matching", "rust-src/src/gridstore/coalesce.rs:tree_coalesce", "rust-src/src/gridstore/spatial.rs:scoredist"]}
{"id": "C102", "title": "Relevance is a share of the query", "statement": "If the weight of every phrase match is the share of the query its tokens have (or lies between two such shares), then the relevance of every context returned by stackAndCoalesce, and by coalesce, is a finite number that is at most the share of all tokens the context covers, and at least 0.384 times it (grids of the lowest relevance, 0.4, in other languages, 0.96) less 0.01 (entries not in order), up to 2^-38 for rounding. With shares that add up to 1, no relevance is above 1.", "quantifier": "all requests and stores; weights between 0 and 1, masks of 1 to 32 tokens; for coalesce also disjoint masks and, with several phrase matches, one that comes last", "why_tests_cant": "relevances are products rounded and added up in the order of the tree, over every stack of compatible phrase matches; tests compare the relevances of a few contexts with literals", "anchors": ["rust-src/src/gridstore/coalesce.rs:tree_coalesce", "rust-src/src/gridstore/coalesce.rs:coalesce_multi", "rust-src/src/gridstore/stackable.rs:stackable", "rust-src/src/gridstore/common.rs:PhrasematchSubquery"]}
{"id": "C103", "title": "Words that nothing matches change nothing", "statement": "If words that no phrase match covers are put into a query, anywhere, and weights stay as they are, stackAndCoalesce returns exactly the contexts it returned before: the same entries, relevances, distances, languages, scores and phrase match ids, with masks that cover the same words at their new positions; no context is lost and none is added. (Not so when words change places: 0.01 may be taken away or given back.)", "quantifier": "all order-preserving renumberings of the tokens that leave masks within 32 bits; all requests within the limits of C91 whose results are not cut off, with any options, stores and bounding boxes", "why_tests_cant": "masks are or-ed, intersected, compared and counted while stacking, fetching, sorting and collapsing; tests use few masks, mostly of the first tokens", "anchors": ["rust-src/src/gridstore/stackable.rs:binned_stackable", "rust-src/src/gridstore/coalesce.rs:tree_coalesce", "rust-src/src/gridstore/coalesce.rs:penalize_multi_context", "rust-src/src/gridstore/coalesce.rs:collapse_phrasematches"]}
{"id": "C104", "title": "Index numbers and phrase match ids are labels", "statement": "If the indexes of a request get other numbers and its match keys other ids, different ones staying different, stackAndCoalesce returns exactly the contexts it returned before with the other numbers in their entries: the same features, tiles, relevances and masks, and temporary ids made of the other numbers; no context is lost and none is added. (Not so for the number 129, which the root of the stack tree has.)", "quantifier": "release builds; all one-to-one renumberings that leave 129 alone; all requests within the limits of C91 whose results are not cut off, with any options, stores, non-overlapping indexes and bounding boxes", "why_tests_cant": "index numbers decide bin order, exclusions, temporary ids and ties, ids are cache keys; tests use 0, 1, 2", "anchors": ["rust-src/src/gridstore/stackable.rs:binned_stackable", "rust-src/src/gridstore/coalesce.rs:tree_coalesce", "rust-src/src/gridstore/coalesce.rs:grid_to_coalesce_entry", "rust-src/src/gridstore/coalesce.rs:collapse_phrasematches"]}
{"id": "C105", "title": "Declaring indexes non-overlapping takes away exactly what combines them", "statement": "If more indexes are declared as not overlapping, stackAndCoalesce returns the same contexts of two or more entries as before, unchanged in every field, but for those in which an entry stands directly above one whose index lists its index as non-overlapping; those are gone, and no context of two or more entries is added. (Contexts of one entry may change: a region that nothing can be below any more does not lose 0.01.) coalesce, which is given one stack, returns the same whatever indexes are declared non-overlapping.", "quantifier": "all added exclusions, other than of the number 129 of the root; all requests within the limits of C91, before and after, whose results are not cut off, with any options, stores and bounding boxes; checked and release builds", "why_tests_cant": "exclusions change the shape of the stack tree, and with it what is fetched, cached, penalised and cut off; tests use empty lists almost everywhere", "anchors": ["rust-src/src/gridstore/stackable.rs:binned_stackable", "rust-src/src/gridstore/coalesce.rs:tree_coalesce", "rust-src/src/gridstore/coalesce.rs:stack_and_coalesce"]}
{"id": "C106", "title": "Types of indexes only give their order", "statement": "If the indexes of a request get other type ids in the same order, equal ones staying equal, stackAndCoalesce returns exactly the same contexts, unchanged in every field, and queries of the indexes return the same entries in the same order. coalesce, which is given one stack, returns the same whatever the types. (With types that become equal, phrase matches are not combined any more.)", "quantifier": "all type ids whose order is the same; queries of all stores with any options; all requests within the limits of C91 whose results are not cut off, with any options, stores and bounding boxes; checked and release builds", "why_tests_cant": "type ids are map keys when phrase matches are binned, and bins decide the shape of the tree, the arena and the order of steps; tests use 0, 1, 2 without gaps", "anchors": ["rust-src/src/gridstore/stackable.rs:stackable", "rust-src/src/gridstore/stackable.rs:binned_stackable", "rust-src/src/gridstore/store.rs:streaming_get_matching", "rust-src/src/gridstore/coalesce.rs:stack_and_coalesce"]}
{"id": "C107", "title": "Ranges add up", "statement": "A query for a range of phrases returns what queries for two ranges it is cut into return, together, counted with repetitions; and, when it is not answered from prefix bins, what queries for its phrases return one by one. (When the range is answered from bins and its parts are not, an entry of two phrases of one bin comes back once for the range and once for each phrase otherwise.)", "quantifier": "all stores whose rows have the layout builders write, however written; all ranges and cuts that read rows of the same kind; all languages, boxes, points and lawful mergers and heaps; checked and release builds; limits no smaller than the number of rows", "why_tests_cant": "ranges are half open, keys sort by phrase and then language, bins and phrases share the database; tests ask for few ranges over few phrases", "anchors": ["rust-src/src/gridstore/store.rs:streaming_get_matching", "rust-src/src/gridstore/common.rs:MatchKey::write_start_to", "rust-src/src/gridstore/common.rs:MatchKey::matches_key"]}
{"id": "C108", "title": "With a context come the contexts above it", "statement": "For every context stackAndCoalesce returns and every cut of its entries into lower and upper ones, it also returns the context of the upper ones: with just those entries, the words they cover, and their relevances added up, less 0.01 if it is one entry or if its lowest entry covers later words than the one above it.", "quantifier": "all requests within the limits of C91 whose results are not cut off, with any options, stores, exclusions and bounding boxes; all cuts; checked and release builds", "why_tests_cant": "upper contexts are computed in other steps of the traversal, from other lookups and cache entries, with other penalties; tests look at the best results only", "anchors": ["rust-src/src/gridstore/coalesce.rs:tree_coalesce", "rust-src/src/gridstore/coalesce.rs:penalize_multi_context", "rust-src/src/gridstore/coalesce.rs:collapse_phrasematches"]}
{"id": "C109", "title": "What is below an entry does not depend on what is above it", "statement": "If two contexts returned by stackAndCoalesce have an entry in common, the entries below it in the one and those above it in the other also come back together in a context, with the words they all cover and their relevances added up (less 0.01 if the lowest entry covers later words than the one above it), unless words would be covered twice. In particular a street in a place and that place in a region give the street in the place in the region.", "quantifier": "all pairs of contexts with something below the common entry in the one and something above it in the other; all requests within the limits of C91 whose results are not cut off, whose indexes have bounding boxes that contain what they hold, with any options, stores and exclusions; checked and release builds", "why_tests_cant": "the combined context comes from another path of the tree with lookups of its own; tests compare single results, not results with each other", "anchors": ["rust-src/src/gridstore/coalesce.rs:tree_coalesce", "rust-src/src/gridstore/stackable.rs:binned_stackable", "rust-src/src/gridstore/coalesce.rs:collapse_phrasematches"]}
{"id": "C110", "title": "Readings of a query that exclude each other do not affect each other", "statement": "When the phrase matches of a request to stackAndCoalesce fall into two readings of the query, such that no phrase match of the one can be combined with one of the other because they share a word or are of the same type, the contexts returned are those returned for the first reading by itself and those returned for the second by itself, each exactly once and unchanged.", "quantifier": "all requests that split into two readings in this way, in any order of phrase matches, within the limits of C91 whose results are not cut off, whose zooms ascend with types and whose indexes have bounding boxes that contain what they hold, with any options, stores and exclusions; any task orders of the three calls; checked and release builds", "why_tests_cant": "the readings share a stack tree, its groups, the scan quotas and the tree's cache of what was fetched; tests run each request by itself", "anchors": ["rust-src/src/gridstore/stackable.rs:binned_stackable", "rust-src/src/gridstore/coalesce.rs:tree_coalesce", "rust-src/src/gridstore/coalesce.rs:collapse_phrasematches"]}
{"id": "C111", "title": "Greatest scores never matter, radiuses only with a point", "statement": "The max_score an index is opened with changes neither the answers to queries nor the results of coalesce nor those of a small request to stackAndCoalesce: it only decides what is looked up first. The coalesce_radius changes them only if the options have a proximity point: without one, the same contexts come back with any radiuses. With a point they may differ.", "quantifier": "all functions giving an index another radius and max score, not a number and infinite ones included; all queries; for stackAndCoalesce all requests within the limits of C91 whose results are not cut off, with any options, stores and exclusions; checked and release builds", "why_tests_cant": "the coalesce tests open nearly every index with radius 200 and max score 1, and never run the same request on indexes opened differently", "anchors": ["rust-src/src/gridstore/store.rs:streaming_get_matching", "rust-src/src/gridstore/coalesce.rs:CoalesceStep", "rust-src/src/gridstore/store.rs:GridStore::new_with_options"]}
{"id": "C112", "title": "Of the bounding boxes of an index only the tiles they cover matter", "statement": "If the bounding boxes of the indexes of a small request are replaced by others that together cover the same tiles, in another order, split up, overlapping or repeated, stackAndCoalesce returns exactly the same contexts, with a point or without.", "quantifier": "all lists of boxes that are not turned around and cover the same tiles, for any of the indexes; all requests within the limits of C91 whose results are not cut off, with any options, stores and exclusions; checked and release builds", "why_tests_cant": "the tests open indexes with one box; the boxes decide which branches of the tree are followed and in which order, each after rounding to the zoom above", "anchors": ["rust-src/src/gridstore/coalesce.rs:tree_coalesce", "rust-src/src/gridstore/coalesce.rs:CoalesceStep", "rust-src/src/gridstore/spatial.rs:adjust_bbox_zoom"]}
{"id": "C113", "title": "Phrase lengths, and nearby_only without a point, only count against quotas", "statement": "If the match keys of a small request get other phrase lengths, and in a search without a point are made nearby_only or not, stackAndCoalesce returns exactly the same contexts as long as the scan quotas suffice for both. coalesce looks at neither at all, so there nearby_only has no effect even with a point, where stackAndCoalesce does leave out what is not nearby.", "quantifier": "all changes of phrase_length and nearby_only of all match keys; for stackAndCoalesce all requests within the limits of C91 whose quotas suffice before and after and whose results are not cut off, nearby_only changing only without a point; for coalesce all stacks, stores, options and orders of hash maps; checked and release builds", "why_tests_cant": "the tests set both fields to false and 0 or 2 nearly everywhere; that the same value reaches only the quotas takes all paths of the tree search", "anchors": ["rust-src/src/gridstore/coalesce.rs:tree_coalesce", "rust-src/src/gridstore/coalesce.rs:coalesce", "rust-src/src/gridstore/common.rs:MatchKeyWithId", "rust-src/src/gridstore/common.rs:with_nearby_only"]}
{"id": "C114", "title": "nearby_only takes away only what is not nearby", "statement": "If match keys of a small request are made nearby_only, stackAndCoalesce returns nothing new: every context it returns then, it also returned before, with the same relevance. And it keeps every context it returned whose entries for these match keys lie in the square of 25 miles round the point, as long as that square does not reach beyond tile 65535. Both leave out contexts of a single phrase match nothing can be put below, which compete for 40 places.", "quantifier": "all two choices of which match keys are nearby_only, one a subset of the other; all requests within the limits of C91 with weights above zero, valid boxes and points, lookups that fit, and results that are not cut off; for the second part also boxes of indexes that cover their grids; release builds", "why_tests_cant": "nearby_only is true for one match key in one test; a match key restricted to nearby grids changes what its index finds, and that decides which branches of the tree are followed", "anchors": ["rust-src/src/gridstore/coalesce.rs:tree_coalesce", "rust-src/src/gridstore/common.rs:with_nearby_only", "rust-src/src/gridstore/store.rs:streaming_get_matching"]}
