{
 "claims": [
  {
   "property": "C01",
   "status": "proved",
   "theorems": [
    "C01_db_keys_injective",
    "C01_bounds_row_separate",
    "C01_lookup_independent"
   ],
   "note": ""
  },
  {
   "property": "C02",
   "status": "proved",
   "theorems": [
    "C02_keys_exact",
    "C02_iter_exact"
   ],
   "note": "values compared through get; records below 4 GiB"
  },
  {
   "property": "C03",
   "status": "partial",
   "theorems": [
    "C03_keys_not_ascending",
    "C03_keys_order_partial",
    "C03_same_length_partial"
   ],
   "note": "false of the code: language sets of different byte length (256 before 2); proved: the exact order (phrase ids, then the dictionary order of the language sets to base 256), so language sets of equal length ascend"
  },
  {
   "property": "C04",
   "status": "proved",
   "theorems": [
    "C04_exact_read_back",
    "C04_read_back_order"
   ],
   "note": "records below 4 GiB"
  },
  {
   "property": "C05",
   "status": "partial",
   "theorems": [
    "C05_relevance_not_kept",
    "C05_score_overflow_partial",
    "C05_documented_scores",
    "C05_query_partial"
   ],
   "note": "false of the code: relevance 0.4 with score 16 reads back as 0.6; proved: exactly what reads back for any score (tile, hash, low 24 id bits and low 4 score bits kept, the high score bits mixed into the relevance), and that scores up to 15 do no harm"
  },
  {
   "property": "C06",
   "status": "proved",
   "theorems": [
    "C06_history_is_map_of_sets"
   ],
   "note": "scores at most 15; ids and relevances as stored by the format; records below 4 GiB"
  },
  {
   "property": "C07",
   "status": "proved",
   "theorems": [
    "C07_bytes_depend_on_content"
   ],
   "note": "whole database, bytes of every row; compact_append with no tiles excluded (see C08)"
  },
  {
   "property": "C08",
   "status": "proved",
   "theorems": [
    "C08_compact_append_is_append",
    "C08_compact_append_reads_as_append",
    "C08_empty_tiles_differ_on_disk"
   ],
   "note": "byte for byte when there is a tile; for an empty tile list the rows differ on disk but read the same"
  },
  {
   "property": "C09",
   "status": "proved",
   "theorems": [
    "C09_renumber_succeeds_iff",
    "C09_renumber_moves"
   ],
   "note": ""
  },
  {
   "property": "C10",
   "status": "partial",
   "theorems": [
    "C10_failed_renumber_loses_data",
    "C10_failed_renumber_partial"
   ],
   "note": "false of the code: a failed renumber loses rows; proved: what is left is renumbered old rows, boundaries unchanged; exactly which rows: C65"
  },
  {
   "property": "C11",
   "status": "partial",
   "theorems": [
    "C11_finish_can_loop",
    "C11_from_javascript",
    "C11_finish_returns_partial"
   ],
   "note": "false of the code: phrase id 2^32-1 makes finish loop forever; proved: it returns exactly when no key has that id"
  },
  {
   "property": "C12",
   "status": "proved",
   "theorems": [
    "C12_crash_rows",
    "C12_crash_reads",
    "C12_crash_no_bins"
   ],
   "note": ""
  },
  {
   "property": "C13",
   "status": "proved",
   "theorems": [
    "C13_fixed_vec_roundtrip",
    "C13_uniform_vec_roundtrip",
    "C13_uniform_vec_width",
    "C13_var_vec_roundtrip",
    "C13_root_roundtrip"
   ],
   "note": ""
  },
  {
   "property": "C14",
   "status": "proved",
   "theorems": [
    "C14_boundaries_roundtrip",
    "C14_boundaries_survive"
   ],
   "note": ""
  },
  {
   "property": "C15",
   "status": "proved",
   "theorems": [
    "C15_range_query_exact"
   ],
   "note": "Multiset equality with the history's content, for every builder history with scores up to 15, every lawful heap and merger, hash order and overflow mode."
  },
  {
   "property": "C16",
   "status": "proved",
   "theorems": [
    "C16_exact_query",
    "C16_debug_panics"
   ],
   "note": "Builds with overflow checks panic for phrase id 2^32-1, which no finished store can hold."
  },
  {
   "property": "C17",
   "status": "partial",
   "theorems": [
    "C17_bins_answer_ranges_partial",
    "C17_bins_exact_partial",
    "C17_low_phrase_leaks",
    "C17_repeated_boundary_loses"
   ],
   "note": "False as stated: phrases below the first boundary leak into the first bin, a boundary that comes back after a higher one overwrites a bin. Partial: boundaries in order (the same one several times in a row is harmless) and no phrase below the start when it is the first boundary; C17_bins_exact_partial says exactly what is answered for any phrases."
  },
  {
   "property": "C18",
   "status": "proved",
   "theorems": [
    "C18_language_match",
    "C18_query_relevance"
   ],
   "note": ""
  },
  {
   "property": "C19",
   "status": "proved",
   "theorems": [
    "C19_box_query_exact",
    "C19_box_is_filter",
    "C19_box_keeps_order"
   ],
   "note": "Order is kept when one stored key answers; across keys the merge decides (C22)."
  },
  {
   "property": "C20",
   "status": "proved",
   "theorems": [
    "C20_tiles_in_z_order",
    "C20_query_in_z_order"
   ],
   "note": ""
  },
  {
   "property": "C21",
   "status": "proved",
   "theorems": [
    "C21_box_tiles_in_z_order",
    "C21_query_in_z_order"
   ],
   "note": ""
  },
  {
   "property": "C22",
   "status": "partial",
   "theorems": [
    "C22_best_first_partial",
    "C22_proximity_not_sorted",
    "C22_proximity_distance_not_sorted",
    "C22_relevance_partial",
    "C22_in_language_partial"
   ],
   "note": "False with a proximity point (two witnesses); proved for every query without one; with one, relevances fall except that of two results in another language, one outside the radius may come before one within it."
  },
  {
   "property": "C23",
   "status": "proved",
   "theorems": [
    "C23_row_limit_lossless",
    "C23_lost_not_better"
   ],
   "note": ""
  },
  {
   "property": "C24",
   "status": "partial",
   "theorems": [
    "C24_zero_limit_panics",
    "C24_nan_radius_panics",
    "C24_box_panics",
    "C24_query_returns_partial",
    "C24_reads_exist",
    "C24_debug_build",
    "C24_zero_limit",
    "C24_no_tiles_panics"
   ],
   "note": "False as stated: limit 0 and radius NaN panic, and an inverted box in a build with debug assertions. Partial: returns whenever limit >= 1, radius is a number, zoom <= 16 (or no proximity) and, with overflow checks, the phrase is not the largest id and the box has its corners in order. C24_zero_limit and C24_debug_build say exactly when a limit of zero and a build with checks differ."
  },
  {
   "property": "C25",
   "status": "proved",
   "theorems": [
    "C25_nearer_or_better",
    "C25_score_cap",
    "C25_finite_positive",
    "C25_constant_beyond_radius",
    "C25_radius_ok",
    "C25_tiles_per_mile",
    "C25_powers_exact",
    "C25_nearer_tile",
    "C25_tiles_beyond_radius",
    "C25_fractional_distance_differs",
    "C25_huge_radius_infinite"
   ],
   "note": "Monotonicity of rounding, division and square root is proved, not assumed."
  },
  {
   "property": "C26",
   "status": "proved",
   "theorems": [
    "C26_point_out",
    "C26_point_in",
    "C26_box_in",
    "C26_box_out",
    "C26_round_trip",
    "C26_no_overflow",
    "C26_sixteen_levels",
    "C26_global_box"
   ],
   "note": ""
  },
  {
   "property": "C27",
   "status": "partial",
   "theorems": [
    "C27_nearby_square_partial",
    "C27_point_stays_partial",
    "C27_up_to_zoom_15",
    "C27_no_point",
    "C27_edge_empty_partial",
    "C27_edge_loses_point",
    "C27_padding",
    "C27_beyond",
    "C27_query_partial",
    "C27_query_edge_partial"
   ],
   "note": "False within 66 tiles of the upper edge at zoom 16 (witness), where the box is always empty and a debug build panics (C27_edge_empty_partial); proved everywhere else. C27_query_partial and C27_query_edge_partial (Props/NearbyQuery.lean) say the same of what queries return. C27_padding, C27_beyond: what happens at the zooms beyond 16."
  },
  {
   "property": "C28",
   "status": "proved",
   "theorems": [
    "C28_queue_keeps_best",
    "C28_push_reports",
    "C28_sorted_keys_unique"
   ],
   "note": "For every lawful min-max heap, every capacity and every push sequence."
  },
  {
   "property": "C29",
   "status": "proved",
   "theorems": [
    "C29_groupby_correct",
    "C29_groupby_pure"
   ],
   "note": ""
  },
  {
   "property": "C30",
   "status": "proved",
   "theorems": [
    "C30_paths_are_stacks",
    "C30_leaf_relevance",
    "C30_fields",
    "C30_root"
   ],
   "note": ""
  },
  {
   "property": "C31",
   "status": "partial",
   "theorems": [
    "C31_neighbours_partial",
    "C31_false",
    "C31_false_upper"
   ],
   "note": "False of the code: only the index of the node directly above is checked, and only in the list of the lower one (bmask is never read). Proved for that case; two concrete counterexamples."
  },
  {
   "property": "C32",
   "status": "proved",
   "theorems": [
    "C32_complete",
    "C32_exactly_once",
    "C32_nothing_else",
    "C32_tree_shape"
   ],
   "note": "The root counts as a neighbour of index 129."
  },
  {
   "property": "C33",
   "status": "partial",
   "theorems": [
    "C33_leaf_count_exact_partial",
    "C33_never_panics_partial",
    "C33_drops_only_worse_partial",
    "C33_stackable_never_panics",
    "C33_infinite_relevance_panics"
   ],
   "note": "Proved for every reachable node store whose relevances are finite. False for infinite relevance, with a witness for every limit."
  },
  {
   "property": "C34",
   "status": "proved",
   "theorems": [
    "C34_max_relev_bounds",
    "C34_attained",
    "C34_nan_weight"
   ],
   "note": "For finite weights; C34_nan_weight shows why that is needed."
  },
  {
   "property": "C35",
   "status": "proved",
   "theorems": [
    "C35_coalesce_output"
   ],
   "note": "No hypotheses: every store, stack and option set, every heap and merger behaviour."
  },
  {
   "property": "C36",
   "status": "partial",
   "theorems": [
    "C36_tmp_ids_distinct_partial",
    "C36_tmp_ids_equal_iff",
    "C36_tmp_ids_collide"
   ],
   "note": "False for index numbers from 128 on (the index is shifted out of 32 bits); the witness shows coalesce dropping features. C36_tmp_ids_equal_iff says exactly when: index numbers equal modulo 128."
  },
  {
   "property": "C37",
   "status": "partial",
   "theorems": [
    "C37_single_best_partial",
    "C37_single_content_partial",
    "C37_feature_zero_lost",
    "C37_changes_counted"
   ],
   "note": "False for a first entry with id 0 and score 0, and because id changes are counted instead of features; proved otherwise."
  },
  {
   "property": "C38",
   "status": "proved",
   "theorems": [
    "C38_single_hash_order"
   ],
   "note": ""
  },
  {
   "property": "C39",
   "status": "proved",
   "theorems": [
    "C39_contexts_consistent",
    "C39_any_stack"
   ],
   "note": ""
  },
  {
   "property": "C40",
   "status": "proved",
   "theorems": [
    "C40_hash_order"
   ],
   "note": ""
  },
  {
   "property": "C41",
   "status": "proved",
   "theorems": [
    "C41_genuine",
    "C41_any_request",
    "C41_shared_id",
    "C41_descending"
   ],
   "note": "For every tree built by stackable, every store, heap and merger. Witnesses show that both hypotheses are needed: with shared key ids cached grids of another index are used, with descending zooms the unchecked shift stacks tiles that do not contain each other."
  },
  {
   "property": "C42",
   "status": "proved",
   "theorems": [
    "C42_bounded_sorted"
   ],
   "note": ""
  },
  {
   "property": "C43",
   "status": "proved",
   "theorems": [
    "C43_quotas"
   ],
   "note": "Holds after any number of rounds."
  },
  {
   "property": "C44",
   "status": "proved",
   "theorems": [
    "C44_terminates",
    "C44_once",
    "C44_fuel"
   ],
   "note": ""
  },
  {
   "property": "C45",
   "status": "partial",
   "theorems": [
    "C45_heap_bound_partial",
    "C45_false"
   ],
   "note": "False of the code: steps added by the last chunk are lost when the loop stops. The witness loses the best context of all. Proved for every step that was in the heap when the loop stopped. C76 says what can be lost at most: stacks that go on below one of the at most seven steps of the last chunk."
  },
  {
   "property": "C46",
   "status": "proved",
   "theorems": [
    "C46_in_order",
    "C46_deterministic",
    "C46_no_deadlock",
    "C46_terminates",
    "C46_map",
    "C46_round"
   ],
   "note": "Small-step pool of tasks sharing no state; every schedule of the pool gives the results in input order and equals the sequential map of the phase; the two parallel phases of a tree coalesce round are instances. Rayon's own scheduler and Rust's memory model are trusted."
  },
  {
   "property": "C47",
   "status": "partial",
   "theorems": [
    "C47_kept_keys_partial",
    "C47_conserves_partial",
    "C47_returns",
    "C47_idempotent",
    "C47_false",
    "C47_no_keys_panics"
   ],
   "note": "The full statement (every match key is kept) is refuted by C47_false: only the first key of a later duplicate survives. Proved in full for phrase matches with one key each, which is what the JavaScript decoding always builds."
  },
  {
   "property": "C48",
   "status": "proved",
   "theorems": [
    "C48_array",
    "C48_round_trip",
    "C48_set_round_trip",
    "C48_other",
    "C48_odd_numbers"
   ],
   "note": "C48_other: exactly null, undefined and arrays of numbers are accepted. C48_odd_numbers: -1 and NaN become language 0 (saturating casts, Rust 1.45 and later)."
  },
  {
   "property": "C49",
   "status": "proved",
   "theorems": [
    "C49_meaning",
    "C49_any_arguments",
    "C49_before",
    "C49_same_as_native",
    "C49_history",
    "C49_finish",
    "C49_after_finish"
   ],
   "note": "neon_serde is an arbitrary decoder with results in range; database faults during finish are covered; a failed finish also consumes the builder. JavaScript getters that run code in the middle of a call are not modelled."
  },
  {
   "property": "C50",
   "status": "proved",
   "theorems": [
    "C50_agrees",
    "C50_nearby",
    "C50_weightless"
   ],
   "note": "Equation between the two implementations, panics included. Conditions named in the statement are needed (C50_nearby, C50_weightless); stored values are bytes; no non-overlapping index 129 (the number the tree gives its root); in a debug build no inverted range."
  },
  {
   "property": "C51",
   "status": "proved",
   "theorems": [
    "C51_javascript_round_trip"
   ],
   "note": "records below 4 GiB; output conversion of neon_serde is the identity"
  },
  {
   "property": "C52",
   "status": "proved",
   "theorems": [
    "C52_key_iterator"
   ],
   "note": "database errors not modelled"
  },
  {
   "property": "C53",
   "status": "proved",
   "theorems": [
    "C53_phrasematches"
   ],
   "note": ""
  },
  {
   "property": "C54",
   "status": "proved",
   "theorems": [
    "C54_from_index",
    "C54_prefix_bins",
    "C54_wraps"
   ],
   "note": "The bins themselves come from the crate fuzzy-phrase (not in the repository); what is assumed of them is in the statement. The largest phrase id wraps around (C54_wraps)."
  },
  {
   "property": "C55",
   "status": "proved",
   "theorems": [
    "C55_complete",
    "C55_boxes_needed"
   ],
   "note": "Converse of C41 (everything returned is genuine): nothing that stacks up is missed. Conditions in the statement; C55_boxes_needed shows that the bounding boxes have to cover the tiles. Zooms need not ascend in a debug build, which panics otherwise."
  },
  {
   "property": "C56",
   "status": "proved",
   "theorems": [
    "C56_sound",
    "C56_complete",
    "C56_tree_sound",
    "C56_tree_complete"
   ],
   "note": "Stated without the tree, the groups of collapsed phrase matches or the caches. Conditions: index numbers identify the index, zooms ascend with the types (or a debug build, which panics otherwise). Stacks of the same weights, indexes and masks count once towards the 2000 and the quotas. The completeness half leaves out a single phrase match nothing can be put below (limit 80, C50)."
  },
  {
   "property": "C57",
   "status": "proved",
   "theorems": [
    "C57_nested_found"
   ],
   "note": "Zooms less than 16 apart, or overflow checks on (a larger gap panics)."
  },
  {
   "property": "C58",
   "status": "proved",
   "theorems": [
    "C58_relevance_is_sum",
    "C58_single"
   ],
   "note": "Zooms less than 16 apart, or overflow checks on (a larger gap panics). Rounding is bounded, not assumed away."
  },
  {
   "property": "C59",
   "status": "partial",
   "theorems": [
    "C59_leaves",
    "C59_exact_partial",
    "C59_rounded_partial",
    "C59_false"
   ],
   "note": "The full statement is false in floating point (C59_false: 0.1 + 0.2 + 0.15 is missing though better than the 2000 stacks of 0.45 kept). Proved: the tree is full whenever a stack is missing; kept stacks are better if sums of weights are exact (multiples of a power of two); in general they are not worse by more than 2^-41 (up to 62 types)."
  },
  {
   "property": "C60",
   "status": "proved",
   "theorems": [
    "C60_coalesce",
    "C60_tree_coalesce",
    "C60_stack_and_coalesce",
    "C60_exceptions",
    "C60_empty_box"
   ],
   "note": "C60_exceptions shows that requests outside the statement do panic."
  },
  {
   "property": "C61",
   "status": "proved",
   "theorems": [
    "C61_best_first",
    "C61_possible"
   ],
   "note": "For every state the loop can reach, every lawful heap and both kinds of builds. The steps taken are seen through the scans they queue."
  },
  {
   "property": "C62",
   "status": "proved",
   "theorems": [
    "C62_single_best",
    "C62_other_language_lost"
   ],
   "note": "Subsumes C37 where the ids change more than 80 times. C62_other_language_lost shows that the language condition is needed."
  },
  {
   "property": "C63",
   "status": "proved",
   "theorems": [
    "C63_last_build_wins",
    "C63_keys",
    "C63_boundaries",
    "C63_bins_out_of_date"
   ],
   "note": "C63_bins_out_of_date shows why prefix bins are excepted. Records below 4 GiB."
  },
  {
   "property": "C64",
   "status": "proved",
   "theorems": [
    "C64_open",
    "C64_same_as_native",
    "C64_stack_and_coalesce",
    "C64_coalesce",
    "C64_empty_array",
    "C64_one_letter",
    "C64_accented_letter"
   ],
   "note": "Release builds for the two no-crash theorems. Errors of the database are not modelled."
  },
  {
   "property": "C65",
   "status": "proved",
   "theorems": [
    "C65_every_history",
    "C65_one_content",
    "C65_renumber_fails_iff",
    "C65_javascript",
    "C65_failing_calls",
    "C65_any_score",
    "C65_query"
   ],
   "note": "Describes exactly what C10 says is lost."
  },
  {
   "property": "C66",
   "status": "proved",
   "theorems": [
    "C66_arguments",
    "C66_index",
    "C66_returns",
    "C66_two_ids_throw",
    "C66_after_finish",
    "C66_distances",
    "C66_phrase_by_id",
    "C66_negative_id"
   ],
   "note": "The fuzzy-phrase crate is a parameter; FindsPhrases (Spec/Index.lean) is what is asked of it, and two small instances meet it."
  },
  {
   "property": "C67",
   "status": "proved",
   "theorems": [
    "C67_query",
    "C67_nothing_else",
    "C67_single",
    "C67_stack_sound",
    "C67_stack_complete"
   ],
   "note": "Joins C66 with C15, C16, C22, C56, C60, C62 and C64. Release builds. The hypotheses are those of C56 and C62, restated for the items."
  },
  {
   "property": "C68",
   "status": "proved",
   "theorems": [
    "C68_every_node_once",
    "C68_every_stack_once",
    "C68_not_by_level"
   ],
   "note": "The loop is modelled with a number of rounds; the theorems say that some number is enough."
  },
  {
   "property": "C69",
   "status": "proved",
   "theorems": [
    "C69_alone_not_lost",
    "C69_from_js"
   ],
   "note": "Fills the case left out of C56 and C67. The conditions on results are those of C62; without them C22_proximity_not_sorted and C37_feature_zero_lost show what goes wrong."
  },
  {
   "property": "C70",
   "status": "proved",
   "theorems": [
    "C70_query",
    "C70_coalesce",
    "C70_tree_coalesce",
    "C70_from_js",
    "C70_fit_same",
    "C70_not_conversely"
   ],
   "note": "No conditions on stores or requests, except those of C60 in C70_fit_same. C24_debug_build says exactly when a query differs."
  },
  {
   "property": "C71",
   "status": "proved",
   "theorems": [
    "C71_copy",
    "C71_copy_reads",
    "C71_bytes_depend_on_kept",
    "C71_from_js"
   ],
   "note": "C71_bytes_depend_on_kept strengthens C07. From JavaScript the boundaries are those the caller loaded; the store does not give them out there."
  },
  {
   "property": "C72",
   "status": "proved",
   "theorems": [
    "C72_listing",
    "C72_query",
    "C72_returns",
    "C72_interrupted",
    "C72_copy"
   ],
   "note": "Generalises C02, C12, C15 and C16 to directories with leftovers. C18, C22, C23, C24 and C60 are now stated for such directories too. Rows are written one at a time, in order; a torn single write is RocksDB's business."
  },
  {
   "property": "C73",
   "status": "proved",
   "theorems": [
    "C73_roundtrip",
    "C73_reads",
    "C73_short_write",
    "C73_paths"
   ],
   "note": "serde_json is a parameter: it reads the records and lists of numbers it prints, and prints no newline in a number; plainJson shows there is one. Failures of the file system other than short writes are left out."
  },
  {
   "property": "C74",
   "status": "proved",
   "theorems": [
    "C74_nothing_lost",
    "C74_fields",
    "C74_get",
    "C74_coalesce_range",
    "C74_search_range",
    "C74_js_range",
    "C74_same_value",
    "C74_copy_script"
   ],
   "note": "neon_serde is modelled as the conversion its documentation gives (struct to object of its fields); for the copy it is only assumed that entries it wrote are read back."
  },
  {
   "property": "C75",
   "status": "proved",
   "theorems": [
    "C75_complete",
    "C75_tree",
    "C75_alone",
    "C75_from_js"
   ],
   "note": "Replaces the hypothesis of C55, C56, C67 and C69 that no slow scans occur by saying what giving them up costs; the quotas still have to be enough. Props/NotWorth.lean has a case where a context is really lost."
  },
  {
   "property": "C76",
   "status": "proved",
   "theorems": [
    "C76_complete",
    "C76_tree",
    "C76_alone",
    "C76_from_js",
    "C76_alone_from_js",
    "C76_seven_needed"
   ],
   "note": "C55, C56, C67, C69 and C75 without the hypothesis that fewer than 800 contexts come back. The quotas still have to be enough."
  },
  {
   "property": "C77",
   "status": "proved",
   "theorems": [
    "C77_phrase_row",
    "C77_bin_row",
    "C77_bounds_row",
    "C77_nothing_else",
    "C77_laid_out",
    "C77_get",
    "C77_boundaries",
    "C77_listing",
    "C77_query",
    "C77_returns"
   ],
   "note": "The description is in Spec/Layout.lean. C18, C22, C23, C24, C60 and C72 are now proved for every store that is laid out so."
  },
  {
   "property": "C78",
   "status": "proved",
   "theorems": [
    "C78_complete",
    "C78_unlimited",
    "C78_tree",
    "C78_alone",
    "C78_from_js",
    "C78_alone_from_js",
    "C78_room_needed"
   ],
   "note": "C55, C56, C67, C69, C75 and C76 with a condition on the quotas that the scans on the stack count against only; none where they count against none."
  },
  {
   "property": "C79",
   "status": "proved",
   "theorems": [
    "C79_complete",
    "C79_sound",
    "C79_alone",
    "C79_few",
    "C79_from_js",
    "C79_sound_from_js",
    "C79_alone_from_js",
    "C79_crowd_needed"
   ],
   "note": "C56, C67, C69 and C78 without the hypothesis that there are fewer than 2000 stacks. Props/Crowd.lean has a case where a context is really lost and one with more than 2000 stacks where the best is not."
  },
  {
   "property": "C80",
   "status": "proved",
   "theorems": [
    "C80_tree",
    "C80_request",
    "C80_from_js",
    "C80_repeated_key"
   ],
   "note": "Contexts are compared by match key id, tile and feature of every level."
  },
  {
   "property": "C81",
   "status": "proved",
   "theorems": [
    "C81_sound",
    "C81_complete",
    "C81_exact",
    "C81_any_order",
    "C81_from_js"
   ],
   "note": "What should come back is defined in Spec/Exact.lean without the tree, the groups of collapsed phrase matches or the caches. C67 and C56 say what is missing from longer lists."
  },
  {
   "property": "C82",
   "status": "proved",
   "theorems": [
    "C82_any_order",
    "C82_any_hash_order",
    "C82_same_index"
   ],
   "note": ""
  },
  {
   "property": "C83",
   "status": "proved",
   "theorems": [
    "C83_get",
    "C83_exact",
    "C83_range",
    "C83_bins",
    "C83_query",
    "C83_coalesce",
    "C83_search",
    "C83_before_the_first_boundary"
   ],
   "note": "The rows a query reads are equal byte for byte."
  },
  {
   "property": "C84",
   "status": "proved",
   "theorems": [
    "C84_keeps_up",
    "C84_request"
   ],
   "note": "Props/AgreeMulti.lean; the rule for several phrase matches that C50 is for a single one. The parents kept are the best ones (Lemmas/CoalesceBest.lean)."
  },
  {
   "property": "C85",
   "status": "proved",
   "theorems": [
    "C85_query",
    "C85_box_exact",
    "C85_coalesce",
    "C85_search",
    "C85_single_zoom"
   ],
   "note": "Ground is described in Spec/Ground.lean by points of the unit square. C85_single_zoom is what happens without the debug assertion."
  },
  {
   "property": "C86",
   "status": "proved",
   "theorems": [
    "C86_query",
    "C86_coalesce",
    "C86_search"
   ],
   "note": "Stored tiles are those of the records (Spec/SameBox.lean). C86_search rests on C81: small requests return exactly what they should, and that depends on the answers to lookups only (Lemmas/SameAnswers.lean)."
  },
  {
   "property": "C87",
   "status": "proved",
   "theorems": [
    "C87_as_if_written",
    "C87_twice",
    "C87_back",
    "C87_exact",
    "C87_range",
    "C87_renumbered",
    "C87_phrases_can_merge",
    "C87_coalesce",
    "C87_search"
   ],
   "note": "Props/Rename.lean, Props/RenameSearch.lean; the rows read are equal but for the number in their keys. C87_phrases_can_merge shows why the number must be given to one phrase only."
  },
  {
   "property": "C88",
   "status": "proved",
   "theorems": [
    "C88_kept",
    "C88_found",
    "C88_alone_changes",
    "C88_limit",
    "C88_from_js"
   ],
   "note": "Small requests, through C81; Spec/Monotone.lean says what standing alone and 0.01 less mean. C88_alone_changes shows that the exception is needed."
  },
  {
   "property": "C89",
   "status": "proved",
   "theorems": [
    "C89_query",
    "C89_coalesce",
    "C89_search",
    "C89_boxes",
    "C89_exact",
    "C89_create_store"
   ],
   "note": "Content is what the calls left behind (C65), Spec/Provenance.lean says what telling of an entry means. C89_boxes discharges the box hypothesis of C81, C83, C86 and C88."
  },
  {
   "property": "C90",
   "status": "proved",
   "theorems": [
    "C90_langs",
    "C90_langs_beyond"
   ],
   "note": "Props/LangHelper.lean."
  },
  {
   "property": "C91",
   "status": "proved",
   "theorems": [
    "C91_sound",
    "C91_complete",
    "C91_exact",
    "C91_covered",
    "C91_any",
    "C91_wider",
    "C91_cut"
   ],
   "note": "Props/Boxes.lean, Spec/Boxes.lean says when a stack is cut. C81_exact is the case of boxes that contain everything (C91_covered). C91_cut is a request where the two differ."
  },
  {
   "property": "C92",
   "status": "proved",
   "theorems": [
    "C92_query",
    "C92_places",
    "C92_search",
    "C92_nothing_new",
    "C92_lone_overtaken"
   ],
   "note": "Props/Languages.lean and Props/LanguagesSearch.lean; searches through C91. C92_lone_overtaken shows that the exception is needed."
  },
  {
   "property": "C93",
   "status": "proved",
   "theorems": [
    "C93_query",
    "C93_bins",
    "C93_search",
    "C93_lone_overtaken"
   ],
   "note": "Props/Growth.lean; queries through C65, searches through C91. C93_lone_overtaken shows that the exception is needed."
  },
  {
   "property": "C94",
   "status": "proved",
   "theorems": [
    "C94_tree",
    "C94_request"
   ],
   "note": "Props/Lookups.lean; the cache holds whatever was looked up to be put together, and a step is taken once."
  },
  {
   "property": "C95",
   "status": "proved",
   "theorems": [
    "C95_search",
    "C95_nothing_new",
    "C95_same",
    "C95_rank"
   ],
   "note": "Props/Weights.lean, through C81; the phrase matches are grouped anew, so nothing is asked of groups."
  },
  {
   "property": "C96",
   "status": "proved",
   "theorems": [
    "C96_query",
    "C96_bins",
    "C96_search",
    "C96_nothing_new",
    "C96_lone_by_tile"
   ],
   "note": "Props/Motion.lean, through C65 and C17; Spec/Motion.lean says what a motion is. Searches in Props/Shift.lean, through C85, C91: moved by whole tiles of a zoom no greater than those of the indexes and the request, with boxes of the indexes that contain everything; C96_lone_by_tile shows that the exception is needed."
  },
  {
   "property": "C97",
   "status": "proved",
   "theorems": [
    "C97_query",
    "C97_bins",
    "C97_search",
    "C97_nothing_new",
    "C97_lone_by_id"
   ],
   "note": "Props/Motion.lean, Props/Relabel.lean; 24 bits are kept of a feature id, hence the condition. Searches through C91, with ids changed one to one; C97_lone_by_id shows that the exception is needed."
  },
  {
   "property": "C98",
   "status": "proved",
   "theorems": [
    "C98_query",
    "C98_bins",
    "C98_search"
   ],
   "note": "Props/Growth.lean; C93_search follows from it. Left out, as in C93: contexts of one phrase match nothing can be put below, which compete for 40 places (C93_lone_overtaken)."
  },
  {
   "property": "C99",
   "status": "proved",
   "theorems": [
    "C99_prepare",
    "C99_returns",
    "C99_agree",
    "C99_first_wins",
    "C99_names",
    "C99_names_other",
    "C99_loaded"
   ],
   "note": "Props/Prepare.lean, Model/Prepare.lean; the bucket is a function from names to decompressed texts, serde_json of a request line a parameter. C99_loaded is through C73."
  },
  {
   "property": "C100",
   "status": "proved",
   "theorems": [
    "C100_query",
    "C100_search",
    "C100_back",
    "C100_lone_overtaken"
   ],
   "note": "Props/Wider.lean; queries through the exact contents of rows, searches through C91. C100_lone_overtaken shows that the exception is needed. C100_back takes boxes of indexes that contain everything, as C81 does."
  },
  {
   "property": "C101",
   "status": "proved",
   "theorems": [
    "C101_query",
    "C101_search",
    "C101_nothing_new",
    "C101_lone_overtaken"
   ],
   "note": "Props/Point.lean; queries through the exact contents of rows, searches through C91; nearby-only keys through C100_query. C101_lone_overtaken shows that the exception is needed."
  },
  {
   "property": "C102",
   "status": "proved",
   "theorems": [
    "C102_search",
    "C102_at_most_one",
    "C102_coalesce",
    "C102_single"
   ],
   "note": "Props/Share.lean; through C41_any_request (any request, no limits), C58 and C39; rounding through F64/Error.lean."
  },
  {
   "property": "C103",
   "status": "proved",
   "theorems": [
    "C103_kept",
    "C103_nothing_new",
    "C103_order_matters"
   ],
   "note": "Props/Respace.lean; through C91, for contexts of one phrase match too. C103_order_matters shows that words must stay in order."
  },
  {
   "property": "C104",
   "status": "proved",
   "theorems": [
    "C104_kept",
    "C104_nothing_new",
    "C104_root_number"
   ],
   "note": "Props/Renumber.lean; through C91, for contexts of one phrase match too. C104_root_number shows that 129 must be left alone."
  },
  {
   "property": "C105",
   "status": "proved",
   "theorems": [
    "C105_kept",
    "C105_only",
    "C105_coalesce",
    "C105_one_changes",
    "C105_from_js"
   ],
   "note": "Props/Exclude.lean, Props/ReplacedJs.lean; through C91. C105_one_changes shows that contexts of one phrase match do change."
  },
  {
   "property": "C106",
   "status": "proved",
   "theorems": [
    "C106_query",
    "C106_same",
    "C106_coalesce",
    "C106_equal_types",
    "C106_from_js"
   ],
   "note": "Props/Retype.lean, Props/ReplacedJs.lean; through C91, for contexts of one phrase match too. C106_equal_types shows that types must not become equal."
  },
  {
   "property": "C107",
   "status": "proved",
   "theorems": [
    "C107_parts",
    "C107_phrases",
    "C107_bins_return_once"
   ],
   "note": "Props/Parts.lean; through the exact contents of rows. C107_bins_return_once shows what differs when only one side is read from bins."
  },
  {
   "property": "C108",
   "status": "proved",
   "theorems": [
    "C108_above",
    "C108_from_js"
   ],
   "note": "Props/Above.lean, Props/RelatedJs.lean; through C91."
  },
  {
   "property": "C109",
   "status": "proved",
   "theorems": [
    "C109_exchange",
    "C109_from_js"
   ],
   "note": "Props/Exchange.lean, Props/RelatedJs.lean; through C81 and C91."
  },
  {
   "property": "C110",
   "status": "proved",
   "theorems": [
    "C110_readings",
    "C110_from_js"
   ],
   "note": "Props/Readings.lean, Props/RelatedJs.lean; through C80 and C81."
  },
  {
   "property": "C111",
   "status": "proved",
   "theorems": [
    "C111_query",
    "C111_same",
    "C111_coalesce",
    "C111_from_point",
    "C111_from_js"
   ],
   "note": "Props/Tuned.lean, Props/TunedJs.lean; through C91. C111_from_point shows that with a point the radius does matter."
  },
  {
   "property": "C112",
   "status": "proved",
   "theorems": [
    "C112_same",
    "C112_from_js"
   ],
   "note": "Props/Tuned.lean, Props/TunedJs.lean; through C91."
  },
  {
   "property": "C113",
   "status": "proved",
   "theorems": [
    "C113_same",
    "C113_coalesce",
    "C113_from_point",
    "C113_from_js"
   ],
   "note": "Props/Rekeyed.lean, Props/TunedJs.lean; through C91. C113_from_point shows that from a point nearby_only does matter for stackAndCoalesce."
  },
  {
   "property": "C114",
   "status": "proved",
   "theorems": [
    "C114_search",
    "C114_back"
   ],
   "note": "Props/Nearby.lean; through C91 and C27_query_partial. Together with C85 (what is returned for such match keys is near) this says what nearby_only does to a search."
  }
 ]
}