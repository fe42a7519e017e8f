# Formal model of carmen-core's gridstore: design

Source: `/repo` (Rust, read as text). Model and proofs: `/verif/lean` (Lean 4.33, Mathlib).
Sections 1 to 4 were written before the proofs and are kept current; section 5 says how each
property was settled, section 6 lists axioms, section 7 lists what turned out false of the code.

## 1. Trusted base

* Lean's kernel. No own axioms, no `sorry`, no `native_decide`/`bv_decide`. Every
  theorem depends at most on `propext`, `Classical.choice`, `Quot.sound`
  (section 6).
* That the Lean definitions say what the Rust code says. Every definition cites
  file and lines and says where it simplifies.
* Interfaces of code outside the repository, modelled by their documented behaviour:
  * RocksDB: a finite map from byte strings to byte strings, iterated in
    lexicographic byte order; `put`s of one process become durable in order (`SMap`).
  * `HashMap`/`HashSet`/`FxHashSet`: finite maps/sets whose iteration order is
    arbitrary (`HMap`, `IterOrder`; theorems quantify over the order); `BTreeMap`: map
    iterated in key order; `IndexMap`: map iterated in insertion order.
  * `MinMaxHeap`: any implementation that satisfies the priority-queue laws (`Heap`;
    theorems quantify over all lawful implementations, so over all tie-breaks).
  * `itertools::kmerge_by`: any function that satisfies the k-way merge laws (`KMerger`).
  * KDBush: any index whose exact lookups return the positions of the points asked for, in any
    order (`Bush`).
  * `neon_serde`: any decoder of entries, tiles and numbers whose results respect the Rust types
    (`Serde`).
  * `serde_json` in the tools: any library that reads the records and lists it prints (`JsonCrate`).
  * `morton`, `byteorder`, `integer-encoding` (varint), `merge_by`, `group_by`,
    `fixedbitset`, `generational-arena`, stable `sort_by`: written out as Lean functions.
  * `rayon`: workers that take waiting tasks and run them in small steps in any interleaving;
    `collect` waits for all of them (`PoolStep`). Tasks share only immutable data.
  * `f64`: IEEE binary64 with round-to-nearest-even, written out as a computable
    Lean function on rationals (`Verif/F64`); one zero instead of two signed zeros.

## 2. What is modelled

Paths are relative to `/repo/rust-src/src/gridstore` unless given in full.

| code | model |
|---|---|
| `common.rs` | `Model/Common.lean`, `Model/Queue.lean`, and the zoom adjustment of options in `Model/Spatial.lean` |
| `gridstore_format.rs` | `Model/Format.lean`: writer and reader, byte for byte |
| `builder.rs` | `Model/Builder.lean`: the whole builder, including `finish` as a sequence of puts |
| `store.rs` | `Model/Store.lean`: open, get, keys, iter, matching queries |
| `spatial.rs` | `Model/Spatial.lean`: everything except test code; `Model/SpatialReads.lean`: the filters again with every read of the tile list checked |
| `stackable.rs` | `Model/Stack.lean`, `Model/Bfs.lean`: everything |
| `coalesce.rs` | `Model/Coalesce.lean`, `Model/TreeCoalesce.lean`: `coalesce`, `tree_coalesce`, `stack_and_coalesce`, `collapse_phrasematches` |
| `/repo/native/src/gridstore.rs` | `Model/Native.lean`: argument decoding of every builder call, `get`, the key iterator, language arrays, phrase-match decoding, the builder life cycle; `Model/NativeCoalesce.lean`: opening a store, `coalesce`, `stackAndCoalesce`, `stackable`; `Model/NativeResults.lean`: the values `get` and the callbacks get |
| `/repo/test_utils/src/lib.rs` | `Model/Tools.lean`: `dump_db_to_json`, `load_db_from_json`, `langarray_to_langfield`, `create_store`; `Model/Prepare.lean`: `ensure_store`, `prepare_phrasematches`, `prepare_stackable_phrasematches` |
| `/repo/native/src/fuzzy_phrase.rs` | `Model/Phrase.lean`: `jsPhraseInsert`, `jsPhraseLoad`, `jsPhraseFinish`, `jsContains`, `jsFuzzyWith`, `jsFuzzyMulti`, `jsGetByPhraseId`, `jsPrefixBins`, over an abstract crate; `prefixBinIds` |

Not modelled: RocksDB itself; I/O errors, except that `finish` may fail while opening or after
any number of puts (`DbFault`); neon handles, getters and exceptions inside serde; the `unsafe`
lifetime transmutes; memory use and integer overflow of `usize` counters; the fuzzy-phrase crate
(a parameter of `Model/Phrase.lean`); benches and the other test helpers.

## 3. Conventions

* Machine integers are `Nat` with explicit bounds where the Rust type gives them
  (`Wf` predicates), and explicit `% 2^n` wherever Rust code truncates. Arithmetic
  that can overflow is modelled twice where it matters: as the wrapping operation
  (release build) and as a checked operation returning `none` (debug build panics); `chk`
  chooses.
* Panics are explicit: functions that can panic return `Option`/`Except`.
* Iterators are lists (all of them are finite); laziness is only visible through
  `take`, `next`, early `break`, which are modelled.
* Nondeterminism (hash iteration order, heap tie-breaks, merge tie-breaks, thread schedules,
  crash points) is universally quantified in the theorems.
* Loops with a data-dependent end (`finish` filling bins, the rounds of tree coalesce) are step
  functions with fuel; separate theorems say when the fuel is enough (C11, C44).

## 4. Layout

* `Verif/F64/*` the float model and its laws.
* `Verif/Model/*` the model, function by function.
* `Verif/Lemmas/*` helper lemmas.
* `Verif/Conformance/*` the repository's own tests replayed on the model: all of
  `tests/coalesce_test.rs`, and the unit tests of `mod.rs` (except the prefix tests, which build
  5000 phrases), `spatial.rs`, `common.rs`, `builder.rs`, `gridstore_format.rs`, `stackable.rs`
  (except `binned_stackable_test`, which asserts nothing) and `coalesce.rs`, and those of
  `tests/bindings/gridstore.js` (except `Bin boundaries`, again 5000 phrases, and opening a directory
  that holds no database). Expected values are
  those the tests assert (a few are stated more fully, e.g. tiles where the test counts them).
  These are tests of the model's fidelity, on literals; no property rests on them.
* `Verif/Spec/*` small specifications, independent of the model's helpers.
* `Verif/Props/*` the property theorems, named `Cxx_...`, each with an `example`
  that meets its hypotheses.
* `/verif/seeded/LOG.jsonl` one line per wrong program tried against the theorems.

## 5. Properties

114 properties: 99 proved as stated, 15 partial (false of the code or needing a condition;
theorems named `_partial` say what holds, the others in the row refute the full statement). Full
statements are in `properties.jsonl`.

| id | title | status | theorems | remarks |
|---|---|---|---|---|
| C01 | Grid keys never collide on disk | proved | `C01_db_keys_injective`, `C01_bounds_row_separate`, `C01_lookup_independent` |  |
| C02 | keys() and iter() list exactly what was stored | proved | `C02_keys_exact`, `C02_iter_exact` | values compared through get; records below 4 GiB |
| C03 | keys() lists keys in ascending grid-key order | partial | `C03_keys_not_ascending`, `C03_keys_order_partial`, `C03_same_length_partial` | false of the code: language sets of different byte length (256 before 2); proved: the exact order (phrase ids, then the dictionary order of the language sets to base 256), so language sets of equal length ascend |
| C04 | Read-back is exact | proved | `C04_exact_read_back`, `C04_read_back_order` | records below 4 GiB |
| C05 | An over-large score only affects the score | partial | `C05_relevance_not_kept`, `C05_score_overflow_partial`, `C05_documented_scores`, `C05_query_partial` | false of the code: relevance 0.4 with score 16 reads back as 0.6; proved: exactly what reads back for any score (tile, hash, low 24 id bits and low 4 score bits kept, the high score bits mixed into the relevance), and that scores up to 15 do no harm |
| C06 | Builder histories behave like a map of sets | proved | `C06_history_is_map_of_sets` | scores at most 15; ids and relevances as stored by the format; records below 4 GiB |
| C07 | Stored bytes do not depend on append order or hash order | proved | `C07_bytes_depend_on_content` | whole database, bytes of every row; compact_append with no tiles excluded (see C08) |
| C08 | compact_append is append of one entry per tile | proved | `C08_compact_append_is_append`, `C08_compact_append_reads_as_append`, `C08_empty_tiles_differ_on_disk` | byte for byte when there is a tile; for an empty tile list the rows differ on disk but read the same |
| C09 | renumber moves every phrase and loses nothing | proved | `C09_renumber_succeeds_iff`, `C09_renumber_moves` |  |
| C10 | A failed renumber leaves the builder unchanged | partial | `C10_failed_renumber_loses_data`, `C10_failed_renumber_partial` | false of the code: a failed renumber loses rows; proved: what is left is renumbered old rows, boundaries unchanged; exactly which rows: C65 |
| C11 | finish always terminates | partial | `C11_finish_can_loop`, `C11_from_javascript`, `C11_finish_returns_partial` | false of the code: phrase id 2^32-1 makes finish loop forever; proved: it returns exactly when no key has that id |
| C12 | A crash during finish never exposes torn or misleading data | proved | `C12_crash_rows`, `C12_crash_reads`, `C12_crash_no_bins` |  |
| C13 | Every vector written into a record reads back identically | proved | `C13_fixed_vec_roundtrip`, `C13_uniform_vec_roundtrip`, `C13_uniform_vec_width`, `C13_var_vec_roundtrip`, `C13_root_roundtrip` |  |
| C14 | Prefix boundaries survive the trip to disk | proved | `C14_boundaries_roundtrip`, `C14_boundaries_survive` |  |
| C15 | A range query returns exactly the range | proved | `C15_range_query_exact` | Multiset equality with the history's content, for every builder history with scores up to 15, every lawful heap and merger, hash order and overflow mode. |
| C16 | An exact query is the one-element range | proved | `C16_exact_query`, `C16_debug_panics` | Builds with overflow checks panic for phrase id 2^32-1, which no finished store can hold. |
| C17 | Prefix bins answer ranges like the phrases themselves | partial | `C17_bins_answer_ranges_partial`, `C17_bins_exact_partial`, `C17_low_phrase_leaks`, `C17_repeated_boundary_loses` | False as stated: phrases below the first boundary leak into the first bin, a boundary that comes back after a higher one overwrites a bin. Partial: boundaries in order (the same one several times in a row is harmless) and no phrase below the start when it is the first boundary; C17_bins_exact_partial says exactly what is answered for any phrases. |
| C18 | Language matching is set intersection | proved | `C18_language_match`, `C18_query_relevance` |  |
| C19 | Box filter is exact | proved | `C19_box_query_exact`, `C19_box_is_filter`, `C19_box_keeps_order` | Order is kept when one stored key answers; across keys the merge decides (C22). |
| C20 | Proximity ordering is a permutation sorted by z-order distance | proved | `C20_tiles_in_z_order`, `C20_query_in_z_order` |  |
| C21 | Box and proximity together are exact and ordered | proved | `C21_box_tiles_in_z_order`, `C21_query_in_z_order` |  |
| C22 | Matching entries come out best first | partial | `C22_best_first_partial`, `C22_proximity_not_sorted`, `C22_proximity_distance_not_sorted`, `C22_relevance_partial`, `C22_in_language_partial` | False with a proximity point (two witnesses); proved for every query without one; with one, relevances fall except that of two results in another language, one outside the radius may come before one within it. |
| C23 | The row limit never costs one of the best results | proved | `C23_row_limit_lossless`, `C23_lost_not_better` |  |
| C24 | A query never panics | partial | `C24_zero_limit_panics`, `C24_nan_radius_panics`, `C24_box_panics`, `C24_query_returns_partial`, `C24_reads_exist`, `C24_debug_build`, `C24_zero_limit`, `C24_no_tiles_panics` | False as stated: limit 0 and radius NaN panic, and an inverted box in a build with debug assertions. Partial: returns whenever limit >= 1, radius is a number, zoom <= 16 (or no proximity) and, with overflow checks, the phrase is not the largest id and the box has its corners in order. C24_zero_limit and C24_debug_build say exactly when a limit of zero and a build with checks differ. |
| C25 | Score-distance rewards closeness and score | proved | `C25_nearer_or_better`, `C25_score_cap`, `C25_finite_positive`, `C25_constant_beyond_radius`, `C25_radius_ok`, `C25_tiles_per_mile`, `C25_powers_exact`, `C25_nearer_tile`, `C25_tiles_beyond_radius`, `C25_fractional_distance_differs`, `C25_huge_radius_infinite` | Monotonicity of rounding, division and square root is proved, not assumed. |
| C26 | Zoom adjustment keeps geography | proved | `C26_point_out`, `C26_point_in`, `C26_box_in`, `C26_box_out`, `C26_round_trip`, `C26_no_overflow`, `C26_sixteen_levels`, `C26_global_box` |  |
| C27 | Nearby-only restricts to a square round the point | partial | `C27_nearby_square_partial`, `C27_point_stays_partial`, `C27_up_to_zoom_15`, `C27_no_point`, `C27_edge_empty_partial`, `C27_edge_loses_point`, `C27_padding`, `C27_beyond`, `C27_query_partial`, `C27_query_edge_partial` | False within 66 tiles of the upper edge at zoom 16 (witness), where the box is always empty and a debug build panics (C27_edge_empty_partial); proved everywhere else. C27_query_partial and C27_query_edge_partial (Props/NearbyQuery.lean) say the same of what queries return. C27_padding, C27_beyond: what happens at the zooms beyond 16. |
| C28 | The bounded priority queue keeps the best k | proved | `C28_queue_keeps_best`, `C28_push_reports`, `C28_sorted_keys_unique` | For every lawful min-max heap, every capacity and every push sequence. |
| C29 | Grouping loses and reorders nothing | proved | `C29_groupby_correct`, `C29_groupby_pure` |  |
| C30 | Every stack is made of compatible phrase matches | proved | `C30_paths_are_stacks`, `C30_leaf_relevance`, `C30_fields`, `C30_root` |  |
| C31 | No stack contains two phrase matches declared non-overlapping | partial | `C31_neighbours_partial`, `C31_false`, `C31_false_upper` | False of the code: only the index of the node directly above is checked, and only in the list of the lower one (bmask is never read). Proved for that case; two concrete counterexamples. |
| C32 | No compatible stack is missing below the limit | proved | `C32_complete`, `C32_exactly_once`, `C32_nothing_else`, `C32_tree_shape` | The root counts as a neighbour of index 129. |
| C33 | The stack limit drops only worse stacks and never panics | partial | `C33_leaf_count_exact_partial`, `C33_never_panics_partial`, `C33_drops_only_worse_partial`, `C33_stackable_never_panics`, `C33_infinite_relevance_panics` | Proved for every reachable node store whose relevances are finite. False for infinite relevance, with a witness for every limit. |
| C34 | A node's maximal relevance bounds everything below it | proved | `C34_max_relev_bounds`, `C34_attained`, `C34_nan_weight` | For finite weights; C34_nan_weight shows why that is needed. |
| C35 | coalesce returns a short, sorted, deduplicated list | proved | `C35_coalesce_output` | No hypotheses: every store, stack and option set, every heap and merger behaviour. |
| C36 | Features of different indexes are never confused | partial | `C36_tmp_ids_distinct_partial`, `C36_tmp_ids_equal_iff`, `C36_tmp_ids_collide` | False for index numbers from 128 on (the index is shifted out of 32 bits); the witness shows coalesce dropping features. C36_tmp_ids_equal_iff says exactly when: index numbers equal modulo 128. |
| C37 | Single coalesce finds every feature | partial | `C37_single_best_partial`, `C37_single_content_partial`, `C37_feature_zero_lost`, `C37_changes_counted` | False for a first entry with id 0 and score 0, and because id changes are counted instead of features; proved otherwise. |
| C38 | Single coalesce does not depend on hash order | proved | `C38_single_hash_order` |  |
| C39 | Stacked contexts are consistent | proved | `C39_contexts_consistent`, `C39_any_stack` |  |
| C40 | Stacked coalesce does not depend on hash order | proved | `C40_hash_order` |  |
| C41 | Tree coalesce returns only genuine stacks | proved | `C41_genuine`, `C41_any_request`, `C41_shared_id`, `C41_descending` | For every tree built by stackable, every store, heap and merger. Witnesses show that both hypotheses are needed: with shared key ids cached grids of another index are used, with descending zooms the unchecked shift stacks tiles that do not contain each other. |
| C42 | Tree coalesce output is bounded and sorted | proved | `C42_bounded_sorted` |  |
| C43 | Fetch quotas are respected | proved | `C43_quotas` | Holds after any number of rounds. |
| C44 | Tree coalesce terminates | proved | `C44_terminates`, `C44_once`, `C44_fuel` |  |
| C45 | Stopping early loses nothing better | partial | `C45_heap_bound_partial`, `C45_false` | False of the code: steps added by the last chunk are lost when the loop stops. The witness loses the best context of all. Proved for every step that was in the heap when the loop stopped. C76 says what can be lost at most: stacks that go on below one of the at most seven steps of the last chunk. |
| C46 | Parallel scheduling does not change the result | proved | `C46_in_order`, `C46_deterministic`, `C46_no_deadlock`, `C46_terminates`, `C46_map`, `C46_round` | Small-step pool of tasks sharing no state; every schedule of the pool gives the results in input order and equals the sequential map of the phase; the two parallel phases of a tree coalesce round are instances. Rayon's own scheduler and Rust's memory model are trusted. |
| C47 | Collapsing phrase matches conserves match keys | partial | `C47_kept_keys_partial`, `C47_conserves_partial`, `C47_returns`, `C47_idempotent`, `C47_false`, `C47_no_keys_panics` | The full statement (every match key is kept) is refuted by C47_false: only the first key of a later duplicate survives. Proved in full for phrase matches with one key each, which is what the JavaScript decoding always builds. |
| C48 | Language arrays round-trip through JavaScript | proved | `C48_array`, `C48_round_trip`, `C48_set_round_trip`, `C48_other`, `C48_odd_numbers` | C48_other: exactly null, undefined and arrays of numbers are accepted. C48_odd_numbers: -1 and NaN become language 0 (saturating casts, Rust 1.45 and later). |
| C49 | A finished JavaScript builder accepts nothing more | proved | `C49_meaning`, `C49_any_arguments`, `C49_before`, `C49_same_as_native`, `C49_history`, `C49_finish`, `C49_after_finish` | neon_serde is an arbitrary decoder with results in range; database faults during finish are covered; a failed finish also consumes the builder. JavaScript getters that run code in the middle of a call are not modelled. |
| C50 | Single-match tree coalesce agrees with coalesce | proved | `C50_agrees`, `C50_nearby`, `C50_weightless` | Equation between the two implementations, panics included. Conditions named in the statement are needed (C50_nearby, C50_weightless); stored values are bytes; no non-overlapping index 129 (the number the tree gives its root); in a debug build no inverted range. |
| C51 | What JavaScript writes it reads back | proved | `C51_javascript_round_trip` | records below 4 GiB; output conversion of neon_serde is the identity |
| C52 | The JavaScript key iterator lists every key once | proved | `C52_key_iterator` | database errors not modelled |
| C53 | Phrase matches from JavaScript lose no key when collapsed | proved | `C53_phrasematches` |  |
| C54 | Bins of the phrase index work as bins of the store | proved | `C54_from_index`, `C54_prefix_bins`, `C54_wraps` | The bins themselves come from the crate fuzzy-phrase (not in the repository); what is assumed of them is in the statement. The largest phrase id wraps around (C54_wraps). |
| C55 | Tree coalesce misses nothing when it has room | proved | `C55_complete`, `C55_boxes_needed` | Converse of C41 (everything returned is genuine): nothing that stacks up is missed. Conditions in the statement; C55_boxes_needed shows that the bounding boxes have to cover the tiles. Zooms need not ascend in a debug build, which panics otherwise. |
| C56 | stackAndCoalesce returns the stacks of the phrase matches, no others, and misses none when it has room | proved | `C56_sound`, `C56_complete`, `C56_tree_sound`, `C56_tree_complete` | Stated without the tree, the groups of collapsed phrase matches or the caches. Conditions: index numbers identify the index, zooms ascend with the types (or a debug build, which panics otherwise). Stacks of the same weights, indexes and masks count once towards the 2000 and the quotas. The completeness half leaves out a single phrase match nothing can be put below (limit 80, C50). |
| C57 | coalesce finds nested grids | proved | `C57_nested_found` | Zooms less than 16 apart, or overflow checks on (a larger gap panics). |
| C58 | The relevance of a coalesced context is the sum of its entries | proved | `C58_relevance_is_sum`, `C58_single` | Zooms less than 16 apart, or overflow checks on (a larger gap panics). Rounding is bounded, not assumed away. |
| C59 | The stack limit drops only stacks worse than all it keeps | partial | `C59_leaves`, `C59_exact_partial`, `C59_rounded_partial`, `C59_false` | The full statement is false in floating point (C59_false: 0.1 + 0.2 + 0.15 is missing though better than the 2000 stacks of 0.45 kept). Proved: the tree is full whenever a stack is missing; kept stacks are better if sums of weights are exact (multiples of a power of two); in general they are not worse by more than 2^-41 (up to 62 types). |
| C60 | Coalescing does not panic | proved | `C60_coalesce`, `C60_tree_coalesce`, `C60_stack_and_coalesce`, `C60_exceptions`, `C60_empty_box` | C60_exceptions shows that requests outside the statement do panic. |
| C61 | Tree coalesce works best first, eight steps at a time | proved | `C61_best_first`, `C61_possible` | For every state the loop can reach, every lawful heap and both kinds of builds. The steps taken are seen through the scans they queue. |
| C62 | A single phrase match loses only what is worse than all it returns | proved | `C62_single_best`, `C62_other_language_lost` | Subsumes C37 where the ids change more than 80 times. C62_other_language_lost shows that the language condition is needed. |
| C63 | Builds in one directory lie on top of each other | proved | `C63_last_build_wins`, `C63_keys`, `C63_boundaries`, `C63_bins_out_of_date` | C63_bins_out_of_date shows why prefix bins are excepted. Records below 4 GiB. |
| C64 | Searching from JavaScript | proved | `C64_open`, `C64_same_as_native`, `C64_stack_and_coalesce`, `C64_coalesce`, `C64_empty_array`, `C64_one_letter`, `C64_accented_letter` | Release builds for the two no-crash theorems. Errors of the database are not modelled. |
| C65 | Histories in which calls fail | proved | `C65_every_history`, `C65_one_content`, `C65_renumber_fails_iff`, `C65_javascript`, `C65_failing_calls`, `C65_any_score`, `C65_query` | Describes exactly what C10 says is lost. |
| C66 | Phrases and grids indexed from JavaScript stay together | proved | `C66_arguments`, `C66_index`, `C66_returns`, `C66_two_ids_throw`, `C66_after_finish`, `C66_distances`, `C66_phrase_by_id`, `C66_negative_id` | The fuzzy-phrase crate is a parameter; FindsPhrases (Spec/Index.lean) is what is asked of it, and two small instances meet it. |
| C67 | What is indexed from JavaScript is found from JavaScript | proved | `C67_query`, `C67_nothing_else`, `C67_single`, `C67_stack_sound`, `C67_stack_complete` | Joins C66 with C15, C16, C22, C56, C60, C62 and C64. Release builds. The hypotheses are those of C56 and C62, restated for the items. |
| C68 | The public traversal of the stacking tree lists every stack exactly once | proved | `C68_every_node_once`, `C68_every_stack_once`, `C68_not_by_level` | The loop is modelled with a number of rounds; the theorems say that some number is enough. |
| C69 | A phrase match nothing can be put below is not lost by stacking and coalescing | proved | `C69_alone_not_lost`, `C69_from_js` | Fills the case left out of C56 and C67. The conditions on results are those of C62; without them C22_proximity_not_sorted and C37_feature_zero_lost show what goes wrong. |
| C70 | What a debug build returns, a release build returns too | proved | `C70_query`, `C70_coalesce`, `C70_tree_coalesce`, `C70_from_js`, `C70_fit_same`, `C70_not_conversely` | No conditions on stores or requests, except those of C60 in C70_fit_same. C24_debug_build says exactly when a query differs. |
| C71 | A store can be copied | proved | `C71_copy`, `C71_copy_reads`, `C71_bytes_depend_on_kept`, `C71_from_js` | C71_bytes_depend_on_kept strengthens C07. From JavaScript the boundaries are those the caller loaded; the store does not give them out there. |
| C72 | Whatever builders leave in a directory can be read | proved | `C72_listing`, `C72_query`, `C72_returns`, `C72_interrupted`, `C72_copy` | Generalises C02, C12, C15 and C16 to directories with leftovers. C18, C22, C23, C24 and C60 are now stated for such directories too. Rows are written one at a time, in order; a torn single write is RocksDB's business. |
| C73 | A store dumped to text and loaded from it is the same store | proved | `C73_roundtrip`, `C73_reads`, `C73_short_write`, `C73_paths` | serde_json is a parameter: it reads the records and lists of numbers it prints, and prints no newline in a number; plainJson shows there is one. Failures of the file system other than short writes are left out. |
| C74 | JavaScript gets what Rust returned | proved | `C74_nothing_lost`, `C74_fields`, `C74_get`, `C74_coalesce_range`, `C74_search_range`, `C74_js_range`, `C74_same_value`, `C74_copy_script` | neon_serde is modelled as the conversion its documentation gives (struct to object of its fields); for the copy it is only assumed that entries it wrote are read back. |
| C75 | Giving up slow scans never costs the best results | proved | `C75_complete`, `C75_tree`, `C75_alone`, `C75_from_js` | Replaces the hypothesis of C55, C56, C67 and C69 that no slow scans occur by saying what giving them up costs; the quotas still have to be enough. Props/NotWorth.lean has a case where a context is really lost. |
| C76 | A full list of results costs little | proved | `C76_complete`, `C76_tree`, `C76_alone`, `C76_from_js`, `C76_alone_from_js`, `C76_seven_needed` | C55, C56, C67, C69 and C75 without the hypothesis that fewer than 800 contexts come back. The quotas still have to be enough. |
| C77 | The bytes of a store | proved | `C77_phrase_row`, `C77_bin_row`, `C77_bounds_row`, `C77_nothing_else`, `C77_laid_out`, `C77_get`, `C77_boundaries`, `C77_listing`, `C77_query`, `C77_returns` | The description is in Spec/Layout.lean. C18, C22, C23, C24, C60 and C72 are now proved for every store that is laid out so. |
| C78 | Scan quotas cost only what counts against them | proved | `C78_complete`, `C78_unlimited`, `C78_tree`, `C78_alone`, `C78_from_js`, `C78_alone_from_js`, `C78_room_needed` | C55, C56, C67, C69, C75 and C76 with a condition on the quotas that the scans on the stack count against only; none where they count against none. |
| C79 | The limit of stacks costs only what 2000 others are as good as | proved | `C79_complete`, `C79_sound`, `C79_alone`, `C79_few`, `C79_from_js`, `C79_sound_from_js`, `C79_alone_from_js`, `C79_crowd_needed` | C56, C67, C69 and C78 without the hypothesis that there are fewer than 2000 stacks. Props/Crowd.lean has a case where a context is really lost and one with more than 2000 stacks where the best is not. |
| C80 | No context is returned twice | proved | `C80_tree`, `C80_request`, `C80_from_js`, `C80_repeated_key` | Contexts are compared by match key id, tile and feature of every level. |
| C81 | A small request returns exactly what it should, in whatever order phrase matches come | proved | `C81_sound`, `C81_complete`, `C81_exact`, `C81_any_order`, `C81_from_js` | What should come back is defined in Spec/Exact.lean without the tree, the groups of collapsed phrase matches or the caches. C67 and C56 say what is missing from longer lists. |
| C82 | The order of a stack makes no difference to coalesce | proved | `C82_any_order`, `C82_any_hash_order`, `C82_same_index` |  |
| C83 | A query depends only on the phrases it asks for | proved | `C83_get`, `C83_exact`, `C83_range`, `C83_bins`, `C83_query`, `C83_coalesce`, `C83_search`, `C83_before_the_first_boundary` | The rows a query reads are equal byte for byte. |
| C84 | coalesce keeps up with stack_and_coalesce on stacks of several phrase matches | proved | `C84_keeps_up`, `C84_request` | Props/AgreeMulti.lean; the rule for several phrase matches that C50 is for a single one. The parents kept are the best ones (Lemmas/CoalesceBest.lean). |
| C85 | A search keeps to its box and measures from its point | proved | `C85_query`, `C85_box_exact`, `C85_coalesce`, `C85_search`, `C85_single_zoom` | Ground is described in Spec/Ground.lean by points of the unit square. C85_single_zoom is what happens without the debug assertion. |
| C86 | A box matters only through the stored tiles in it | proved | `C86_query`, `C86_coalesce`, `C86_search` | Stored tiles are those of the records (Spec/SameBox.lean). C86_search rests on C81: small requests return exactly what they should, and that depends on the answers to lookups only (Lemmas/SameAnswers.lean). |
| C87 | The numbers of phrases are only names | proved | `C87_as_if_written`, `C87_twice`, `C87_back`, `C87_exact`, `C87_range`, `C87_renumbered`, `C87_phrases_can_merge`, `C87_coalesce`, `C87_search` | Props/Rename.lean, Props/RenameSearch.lean; the rows read are equal but for the number in their keys. C87_phrases_can_merge shows why the number must be given to one phrase only. |
| C88 | Another phrase match takes nothing away | proved | `C88_kept`, `C88_found`, `C88_alone_changes`, `C88_limit`, `C88_from_js` | Small requests, through C81; Spec/Monotone.lean says what standing alone and 0.01 less mean. C88_alone_changes shows that the exception is needed. |
| C89 | Nothing is returned that was not written | proved | `C89_query`, `C89_coalesce`, `C89_search`, `C89_boxes`, `C89_exact`, `C89_create_store` | Content is what the calls left behind (C65), Spec/Provenance.lean says what telling of an entry means. C89_boxes discharges the box hypothesis of C81, C83, C86 and C88. |
| C90 | Lists of languages mean the same to the tests and to the bindings | proved | `C90_langs`, `C90_langs_beyond` | Props/LangHelper.lean. |
| C91 | Exactly what is returned, whatever the bounding boxes of the indexes say | proved | `C91_sound`, `C91_complete`, `C91_exact`, `C91_covered`, `C91_any`, `C91_wider`, `C91_cut` | Props/Boxes.lean, Spec/Boxes.lean says when a stack is cut. C81_exact is the case of boxes that contain everything (C91_covered). C91_cut is a request where the two differ. |
| C92 | Asking for more languages takes nothing away and lowers nothing | proved | `C92_query`, `C92_places`, `C92_search`, `C92_nothing_new`, `C92_lone_overtaken` | Props/Languages.lean and Props/LanguagesSearch.lean; searches through C91. C92_lone_overtaken shows that the exception is needed. |
| C93 | Indexing more takes nothing away and lowers nothing | proved | `C93_query`, `C93_bins`, `C93_search`, `C93_lone_overtaken` | Props/Growth.lean; queries through C65, searches through C91. C93_lone_overtaken shows that the exception is needed. |
| C94 | Nothing is looked up again | proved | `C94_tree`, `C94_request` | Props/Lookups.lean; the cache holds whatever was looked up to be put together, and a step is taken once. |
| C95 | A heavier phrase match ranks no lower | proved | `C95_search`, `C95_nothing_new`, `C95_same`, `C95_rank` | Props/Weights.lean, through C81; the phrase matches are grouped anew, so nothing is asked of groups. |
| C96 | Moving the map moves the results | proved | `C96_query`, `C96_bins`, `C96_search`, `C96_nothing_new`, `C96_lone_by_tile` | Props/Motion.lean, through C65 and C17; Spec/Motion.lean says what a motion is. Searches in Props/Shift.lean, through C85, C91: moved by whole tiles of a zoom no greater than those of the indexes and the request, with boxes of the indexes that contain everything; C96_lone_by_tile shows that the exception is needed. |
| C97 | Ids are labels | proved | `C97_query`, `C97_bins`, `C97_search`, `C97_nothing_new`, `C97_lone_by_id` | Props/Motion.lean, Props/Relabel.lean; 24 bits are kept of a feature id, hence the condition. Searches through C91, with ids changed one to one; C97_lone_by_id shows that the exception is needed. |
| C98 | Better entries rank no lower | proved | `C98_query`, `C98_bins`, `C98_search` | Props/Growth.lean; C93_search follows from it. Left out, as in C93: contexts of one phrase match nothing can be put below, which compete for 40 places (C93_lone_overtaken). |
| C99 | Prepared requests are what the file says | proved | `C99_prepare`, `C99_returns`, `C99_agree`, `C99_first_wins`, `C99_names`, `C99_names_other`, `C99_loaded` | Props/Prepare.lean, Model/Prepare.lean; the bucket is a function from names to decompressed texts, serde_json of a request line a parameter. C99_loaded is through C73. |
| C100 | A wider box takes nothing away, and adds only what lies outside | proved | `C100_query`, `C100_search`, `C100_back`, `C100_lone_overtaken` | Props/Wider.lean; queries through the exact contents of rows, searches through C91. C100_lone_overtaken shows that the exception is needed. C100_back takes boxes of indexes that contain everything, as C81 does. |
| C101 | A point takes nothing away and lowers no relevance | proved | `C101_query`, `C101_search`, `C101_nothing_new`, `C101_lone_overtaken` | Props/Point.lean; queries through the exact contents of rows, searches through C91; nearby-only keys through C100_query. C101_lone_overtaken shows that the exception is needed. |
| C102 | Relevance is a share of the query | proved | `C102_search`, `C102_at_most_one`, `C102_coalesce`, `C102_single` | Props/Share.lean; through C41_any_request (any request, no limits), C58 and C39; rounding through F64/Error.lean. |
| C103 | Words that nothing matches change nothing | proved | `C103_kept`, `C103_nothing_new`, `C103_order_matters` | Props/Respace.lean; through C91, for contexts of one phrase match too. C103_order_matters shows that words must stay in order. |
| C104 | Index numbers and phrase match ids are labels | proved | `C104_kept`, `C104_nothing_new`, `C104_root_number` | Props/Renumber.lean; through C91, for contexts of one phrase match too. C104_root_number shows that 129 must be left alone. |
| C105 | Declaring indexes non-overlapping takes away exactly what combines them | proved | `C105_kept`, `C105_only`, `C105_coalesce`, `C105_one_changes`, `C105_from_js` | Props/Exclude.lean, Props/ReplacedJs.lean; through C91. C105_one_changes shows that contexts of one phrase match do change. |
| C106 | Types of indexes only give their order | proved | `C106_query`, `C106_same`, `C106_coalesce`, `C106_equal_types`, `C106_from_js` | Props/Retype.lean, Props/ReplacedJs.lean; through C91, for contexts of one phrase match too. C106_equal_types shows that types must not become equal. |
| C107 | Ranges add up | proved | `C107_parts`, `C107_phrases`, `C107_bins_return_once` | Props/Parts.lean; through the exact contents of rows. C107_bins_return_once shows what differs when only one side is read from bins. |
| C108 | With a context come the contexts above it | proved | `C108_above`, `C108_from_js` | Props/Above.lean, Props/RelatedJs.lean; through C91. |
| C109 | What is below an entry does not depend on what is above it | proved | `C109_exchange`, `C109_from_js` | Props/Exchange.lean, Props/RelatedJs.lean; through C81 and C91. |
| C110 | Readings of a query that exclude each other do not affect each other | proved | `C110_readings`, `C110_from_js` | Props/Readings.lean, Props/RelatedJs.lean; through C80 and C81. |
| C111 | Greatest scores never matter, radiuses only with a point | proved | `C111_query`, `C111_same`, `C111_coalesce`, `C111_from_point`, `C111_from_js` | Props/Tuned.lean, Props/TunedJs.lean; through C91. C111_from_point shows that with a point the radius does matter. |
| C112 | Of the bounding boxes of an index only the tiles they cover matter | proved | `C112_same`, `C112_from_js` | Props/Tuned.lean, Props/TunedJs.lean; through C91. |
| C113 | Phrase lengths, and nearby_only without a point, only count against quotas | proved | `C113_same`, `C113_coalesce`, `C113_from_point`, `C113_from_js` | Props/Rekeyed.lean, Props/TunedJs.lean; through C91. C113_from_point shows that from a point nearby_only does matter for stackAndCoalesce. |
| C114 | nearby_only takes away only what is not nearby | proved | `C114_search`, `C114_back` | Props/Nearby.lean; through C91 and C27_query_partial. Together with C85 (what is returned for such match keys is near) this says what nearby_only does to a search. |

## 6. Axioms

From `#print axioms` on every theorem above (440 theorems). 425 depend on exactly
`propext`, `Classical.choice`, `Quot.sound`. The others depend on fewer:

* `Quot.sound`, `propext` only: `C26_point_out`, `C26_box_out`, `C28_queue_keeps_best`, `C28_push_reports`, `C29_groupby_correct`, `C29_groupby_pure`, `C46_in_order`, `C46_deterministic`, `C46_terminates`, `C46_map`, `C66_after_finish`.
* `propext` only: `C01_bounds_row_separate`, `C26_sixteen_levels`, `C47_returns`, `C54_wraps`.

## 7. Findings

What the proofs showed to be wrong or surprising in the code. Each item names the theorem with
the concrete witness where there is one.

Builder and format

* A score above 15 spills into the relevance bits: relevance 0.4 with score 16 reads back as 0.6
  (`C05_relevance_not_kept`; exact behaviour in `C05_score_overflow_partial`).
* Ids keep 24 bits; relevances other than 0.4, 0.6, 0.8 silently become 1 (`Spec.stored`).
* `renumber` that fails has already dropped rows (`C10_failed_renumber_loses_data`).
* `renumber` sends two phrases to one id without an error when their languages differ; only equal keys
  count as duplicates (`C87_phrases_can_merge`).
* `finish` never returns if a key has phrase id 2^32-1 (`C11_finish_can_loop`).
* `compact_append` with no tiles leaves an empty group on disk
  (`C08_empty_tiles_differ_on_disk`).
* `keys()` is in byte order, not in grid-key order (`C03_keys_not_ascending`).
* Building again in the same directory keeps the rows of the earlier build, and prefix bins then
  disagree with the phrases: they miss old entries and return replaced ones
  (`C63_bins_out_of_date`).

Queries

* Phrases below the first boundary are counted into the first bin (`C17_low_phrase_leaks`); a
  boundary that comes back after a higher one loses a bin (`C17_repeated_boundary_loses`).
* With a proximity point results are not sorted, neither by relevance
  (`C22_proximity_not_sorted`) nor by score-distance (`C22_proximity_distance_not_sorted`). The only
  disorder of relevances is between two results in another language, one outside the radius and one
  within it (`C22_relevance_partial`).
* As a consequence `coalesce` of one phrase match can lose the best result: if the results
  are in another language and 81 far features have a higher score, the result near the user is never
  reached, though its relevance alone is not lowered for the language (`C62_other_language_lost`).
* A row limit of 0 panics (`C24_zero_limit_panics`), a NaN radius panics
  (`C24_nan_radius_panics`); a box that ends before it starts trips a debug assertion in
  `bbox_range` (`C24_box_panics`; `C24_debug_build` says exactly when; a compact append without tiles
  is enough if there is a proximity point, `C24_no_tiles_panics`), and so does a valid request whose box is disjoint from the square
  around the point when a match key is `nearby_only` (`C60_exceptions`): `with_nearby_only` then makes
  an inverted box; an exact query for 2^32-1 panics in debug builds
  (`C16_debug_panics`).
* A huge radius gives an infinite score-distance (`C25_huge_radius_infinite`); fractional
  distances below 1 beyond a radius below 1 differ (`C25_fractional_distance_differs`).
* Zooms 16 apart overflow the shift (`C26_sixteen_levels`).
* `coalesce` of one phrase match takes the options as they are. At another zoom than the index's a debug
  build panics, a release build returns results from outside the box (`C85_single_zoom`).
* `with_nearby_only` overflows near the right and lower edge at zoom 16 and loses the point itself
  (`C27_edge_loses_point`).

Stacking

* Non-overlapping indexes are compared with the immediate parent only (`C31_false`) and only
  in one direction (`C31_false_upper`); the mask built for this is never read.
* The root acts as a phrase match of index 129, so an index declaring 129 non-overlapping cannot
  be first in a stack (`IsStack.root`, C32).
* An infinite relevance panics the node arena once the soft limit is reached
  (`C33_infinite_relevance_panics`).
* The estimate that skips phrase matches once the limit is reached is rounded differently from the
  relevance it estimates: a stack better than all 2000 kept can be missing (`C59_false`).
* Stacks that find nothing use up the limit too: with 2000 of them, all that another one would find is
  lost and nothing comes back (`C79_crowd_needed`).
* A NaN weight escapes the maximal relevance of the root (`C34_nan_weight`).
* A bounding box that leaves a feature out hides it only if no other feature keeps the way open: the box
  is compared with the tiles found above, rounded outwards (`C91_exact`, `C91_cut`).

Coalesce

* Temporary ids collide for indexes of 128 and more, and a feature is dropped as a duplicate
  (`C36_tmp_ids_collide`).
* Feature id 0 with score 0 is lost when it comes first (`C37_feature_zero_lost`); the feature
  limit counts changes of id, not features (`C37_changes_counted`).
* `coalesce` of an empty list panics (it indexes the first element), also from JavaScript.
* `bfs` goes depth first, from the last child to the first, not by level (`C68_not_by_level`).
* With a mask of 0 `coalesce_multi` can pop the wrong entry (excluded in C39, C40).
* Zooms 16 apart shift by a masked amount in release builds and panic in debug builds.
* `coalesce` ignores the nearby-only flag which tree coalesce honours (`C50_nearby`); tree
  coalesce skips a weight-0 range match on a high-zoom index (`C50_weightless`).

Tree coalesce

* The cache of results is keyed by match-key id only (`C41_shared_id`).
* Zooms that descend with types stack wrong tiles in release builds (`C41_descending`).
* Stopping early can lose a context better than everything returned (`C45_false`,
  `C76_seven_needed`): children of the last chunk are dropped. That concerns at most seven stacks
  (C76).
* Quotas are used up by rejected and by repeated match keys; at most 40 contexts per match key are
  carried on. Searches that find nothing use up quotas too: after eight of one letter the ninth is not
  made, and nothing at all may come back although it would find something (`C78_room_needed`). What
  counts against no spent quota is not affected (C78).
* `collapse_phrasematches` keeps only the first match key of later duplicates (`C47_false`)
  and panics if one has none (`C47_no_keys_panics`). Phrase matches coming from JavaScript are
  not affected (C53).
* With overflow checks, an index at zoom 16 on the first level of the tree panics: the scale factor
  is computed against zoom 0 even when there are no parents (`C60_exceptions`).

JavaScript bindings

* Language ids -1 and NaN mean language 0 (`C48_odd_numbers`).
* A `finish` that fails has consumed the builder (C49).
* `getPrefixBins` wraps the end of a bin ending at 2^32-1 to 0 (`C54_wraps`).
* `getByPhraseId(-1)` and `getByPhraseId(NaN)` look phrase 0 up (`C66_negative_id`).
* `coalesce([], ...)` panics in the worker thread (`C64_empty_array`).
* A one-letter phrase that is not ASCII, say "é", has length 2 and escapes the one-letter quota
  (`C64_accented_letter`).
* A phrase id of 2^32-1 or more, even `Infinity`, is accepted and makes `finish` hang
  (`C11_from_javascript`).

Repeats

* A phrase match that stands alone keeps 40 features. Asking for one more language, in a wider box or
  near a point, or writing features with higher scores, can drop the one that came first before (`C92_lone_overtaken`,
  `C93_lone_overtaken`, `C100_lone_overtaken`, `C101_lone_overtaken`).
* Of 41 features that differ only in their ids, a search of one phrase match leaves out the one with
  the least id (`C97_lone_by_id`): ids are not quite labels there.
* A phrase match that stands alone is looked up for 80 results, of equal ones the last along the
  z-order curve. Moving the map by one tile can bring others (`C96_lone_by_tile`).
* A phrase match handed over twice makes contexts come back twice (`C80_repeated_key`).
* For two phrase matches of one index at one zoom, `coalesce` depends on the order of the stack
  (`C82_same_index`).

Tools

* `dump_db_to_json` calls `write` where `write_all` is needed. A line of 8192 bytes or more goes past
  the buffer in one system call; if that takes only part of it, the rest is dropped without an error
  (`C73_short_write`). Linux takes at most 2147479552 bytes at a time, and less when a disk fills up.
* `langarray_to_langfield` of the test helpers takes language 129 for language 1 in a release build and
  panics in a debug build, the bindings ignore it (`C90_langs_beyond`).
* The first placeholder of a request file with a path decides how its index is opened; a later one that
  says another zoom or type is ignored (`C99_first_wins`). The boundaries of an index that is not named
  `….gridstore.rocksdb` are read from the file with the records (`C99_names_other`).
