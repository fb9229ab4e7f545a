{
 "claims": [
  {
   "property": "C01",
   "status": "partial",
   "theorems": [
    "ITree.C01_family_view_partial",
    "ITree.C01_family_key_partial",
    "ITree.C05_C01_insert_below",
    "ITree.C09_C01_del_slice",
    "ITree.C10_C01_empty_family",
    "ITree.C12_C01_rename_twin"
   ],
   "note": "Proved after every history of `Allowed` calls and of load_links on own-tree link roots without children (`MayLoad`) and of in-depth calls (reverse, sort, remove, flags), force_cache_update, remove(list), clear(local_only), +, *, eval/unpickling (`MoreOK`; any length, exceptions caught by the caller). Missing because false in the code: insert below -len (C05_C01_insert_below), del of a slice (C09_C01_del_slice), replacing the only member of a family (C10_C01_empty_family), renaming an item that has an equal same-tag sibling (C12_C01_rename_twin)."
  },
  {
   "property": "C02",
   "status": "partial",
   "theorems": [
    "ITree.C02_parent_child_partial",
    "ITree.C02_parent_iff_partial",
    "ITree.C10_C02_replace_family"
   ],
   "note": "Child => parent, no duplicates, single parent: after every allowed history (as C01). Both directions: for allowed histories without sort/clear, which leave former children with their old parent (C15_sort_replaces, C16_clear_leftovers); t[tag]=x does the same (C10_C02_replace_family)."
  },
  {
   "property": "C03",
   "status": "proved",
   "theorems": [
    "ITree.C03_append_item",
    "ITree.C03_append_owned",
    "ITree.C03_append_value"
   ],
   "note": "Full statement, on every state reached by allowed calls; the two exclusions of `Allowed` for append concern only the root of the receiver's own tree (C25_cycle)."
  },
  {
   "property": "C04",
   "status": "proved",
   "theorems": [
    "ITree.C04_appendleft_item",
    "ITree.C04_appendleft_owned",
    "ITree.C04_appendleft_value"
   ],
   "note": "Full statement, as C03."
  },
  {
   "property": "C05",
   "status": "partial",
   "theorems": [
    "ITree.C05_C24_insert_crash",
    "ITree.C05_C01_insert_below",
    "ITree.C05_insert_item_target",
    "ITree.C05_insert_partial",
    "ITree.C05_insert_returns",
    "ITree.C05_insert_near",
    "ITree.C05_inserts",
    "ITree.C05_inserts_after_reading",
    "ITree.C05_C24_insert_beyond_end"
   ],
   "note": "If the call returns and k >= -len, the result is list.insert (C05_insert_partial). Returning is guaranteed when no cached position is off by more than 19 (C05_insert_near), e.g. for the next 20 insertions inside the list after the positions were read (C05_inserts_after_reading), for a new tag and at the ends; otherwise the family search may raise AttributeError (C05_C24_insert_crash, C05_C24_insert_beyond_end). False below -len (C05_C01_insert_below); an item as target is never accepted (C05_insert_item_target)."
  },
  {
   "property": "C06",
   "status": "proved",
   "theorems": [
    "ITree.C06_family_position"
   ],
   "note": "For every family, every absolute position and every cache content."
  },
  {
   "property": "C07",
   "status": "proved",
   "theorems": [
    "ITree.C07_extend_lists",
    "ITree.C07_C21_C24_extend_lists_protected",
    "ITree.C07_list_is_no_value",
    "ITree.C07_extend_tree",
    "ITree.C07_extend"
   ],
   "note": "Items and values: C07_extend. An item as argument, wherever it is: C07_extend_tree. Argument lists: C07_extend_lists; a Python list among the items is never a value (C07_list_is_no_value, documented behaviour of the code, not of the other methods)."
  },
  {
   "property": "C08",
   "status": "partial",
   "theorems": [
    "ITree.C08_extendleft_own_child",
    "ITree.C08_extendleft_partial"
   ],
   "note": "Missing because false: an argument that already is a child of the receiver (C08_extendleft_own_child)."
  },
  {
   "property": "C09",
   "status": "proved",
   "theorems": [
    "ITree.C09_C24_del_slice_error",
    "ITree.C09_C01_del_slice",
    "ITree.C09_del_child",
    "ITree.C09_del_range",
    "ITree.C09_remove",
    "ITree.C09_del_key",
    "ITree.C09_remove_many",
    "ITree.C09_C24_remove_many_foreign"
   ],
   "note": "Statement (integer indexes) proved in full, also for keys and remove. The slice form of del is defective: C09_C01_del_slice, C09_C24_del_slice_error. remove with several items: C09_remove_many, C09_C24_remove_many_foreign."
  },
  {
   "property": "C10",
   "status": "partial",
   "theorems": [
    "ITree.C10_C01_empty_family",
    "ITree.C10_C24_empty_family_insert",
    "ITree.C10_C02_replace_family",
    "ITree.C10_setitem_partial",
    "ITree.C10_set_list",
    "ITree.C10_set_list_single_wrong",
    "ITree.C10_int_tag_wrong",
    "ITree.C10_C21_C24_set_list_protected",
    "ITree.C10_C24_set_list_missing"
   ],
   "note": "If the call returns; across tags only if the old family has another member. Otherwise false (C10_C01_empty_family, C10_C24_empty_family_insert, C10_C02_replace_family). Lists: C10_set_list for targets denoting several children (each new object with the tag of the one it replaces); false for a target denoting one child (C10_set_list_single_wrong) and when the tag of the new item is the integer used as index (C10_int_tag_wrong)."
  },
  {
   "property": "C11",
   "status": "partial",
   "theorems": [
    "ITree.C11_C24_move_crash",
    "ITree.C11_move_last",
    "ITree.C11_move_int_partial",
    "ITree.C11_move_before",
    "ITree.C11_move_lands_after",
    "ITree.C11_move_near"
   ],
   "note": "x.move(): full. x.move(k): if it returns, x is taken out and list.insert(k,x) done; this is `before the item at k` iff x stood at or behind k (C11_move_before, C11_move_lands_after). Crash of the family search: C11_C24_move_crash. It returns when no cached position is off by more than 18 (C11_move_near)."
  },
  {
   "property": "C12",
   "status": "partial",
   "theorems": [
    "ITree.C12_C01_rename_twin",
    "ITree.C49_C12_stray_after_sort",
    "ITree.C12_rename_root",
    "ITree.C12_rename_partial"
   ],
   "note": "Proved if no same-tag sibling compares equal; otherwise the wrong item is taken out of the family (C12_C01_rename_twin)."
  },
  {
   "property": "C13",
   "status": "partial",
   "theorems": [
    "ITree.C13_reverse_partial",
    "ITree.C13_reverse_twice",
    "ITree.C13_reverse_never_filled"
   ],
   "note": "Item with children: proved. Never filled item: AttributeError (C13_reverse_never_filled)."
  },
  {
   "property": "C14",
   "status": "partial",
   "theorems": [
    "ITree.C14_rotate_right_partial",
    "ITree.C14_rotate_left_partial",
    "ITree.C14_rotate_back",
    "ITree.C14_rotate_too_far"
   ],
   "note": "|n| <= len proved; beyond len the call raises after taking all children out (C14_rotate_too_far)."
  },
  {
   "property": "C15",
   "status": "partial",
   "theorems": [
    "ITree.C15_sort_partial",
    "ITree.C15_sort_replaces"
   ],
   "note": "Order and stability proved; the items are replaced by copies, so identity is not kept (C15_sort_replaces)."
  },
  {
   "property": "C16",
   "status": "partial",
   "theorems": [
    "ITree.C16_clear_local",
    "ITree.C16_local_only_partial",
    "ITree.C16_local_only_wrong",
    "ITree.C16_local_only_loaded_wrong",
    "ITree.C48_C16_cleared_wrong",
    "ITree.C16_clear_partial",
    "ITree.C16_clear_leftovers",
    "ITree.C16_clear_drops_flags"
   ],
   "note": "Children and value are dropped; former children keep their parent (C16_clear_leftovers) and all flags are cleared (C16_clear_drops_flags). clear(local_only=True) on link roots is described exactly for every reachable state (C16_clear_local); it deletes while iterating, so it leaves every second local child (C16_local_only_wrong) and is refused on loaded link roots whose first child is linked (C16_local_only_loaded_wrong)."
  },
  {
   "property": "C17",
   "status": "proved",
   "theorems": [
    "ITree.C17_idx_child",
    "ITree.C17_idx_root",
    "ITree.C17_idx_any_cache",
    "ITree.C17_reading_refreshes"
   ],
   "note": "For every child in every reachable state and, separately, for arbitrary cache contents."
  },
  {
   "property": "C18",
   "status": "partial",
   "theorems": [
    "ITree.C18_tag_idx_bare",
    "ITree.C18_grown",
    "ITree.C18_tag_idx_partial",
    "ITree.C18_tag_idx_second",
    "ITree.C18_tag_idx_root",
    "ITree.C18_tag_idx_bare_any_cache",
    "ITree.C60_C18_force_update"
   ],
   "note": "Position and lookup right in every reachable state; missing: the first read may deliver the bare number instead of the pair (C18_tag_idx_bare); the second read always delivers the pair (C18_tag_idx_second). For trees that were only built up (constructors, append, appendleft-free extends, copies, reads) the first read already delivers the pair and changes nothing (C18_grown)."
  },
  {
   "property": "C19",
   "status": "partial",
   "theorems": [
    "ITree.C19_grown",
    "ITree.C45_C19_deep_index_partial",
    "ITree.C19_idx_path",
    "ITree.C19_tag_idx_path_partial",
    "ITree.C19_tag_idx_path_second",
    "ITree.C19_neighbours"
   ],
   "note": "idx_path full (states without sort/clear, where parents are meaningful). tag_idx_path: elements may be bare numbers on the first read, right on the second read. For built-up trees every element is a pair at the first read (C19_grown)."
  },
  {
   "property": "C20",
   "status": "proved",
   "theorems": [
    "ITree.C44_C20_key_leads_back",
    "ITree.C20_index",
    "ITree.C20_index_miss",
    "ITree.C20_slice",
    "ITree.C20_key_slice",
    "ITree.C20_key",
    "ITree.C20_key_miss",
    "ITree.C20_only_children"
   ],
   "note": "Full statement on every reachable state."
  },
  {
   "property": "C21",
   "status": "proved",
   "theorems": [
    "ITree.C07_C21_C24_extend_lists_protected",
    "ITree.C54_C21_reverse_keeps",
    "ITree.C21_frozen",
    "ITree.C21_frozen_subtree",
    "ITree.C21_locked",
    "ITree.C21_locked_remove",
    "ITree.C21_locked_history",
    "ITree.C10_C21_C24_set_list_protected",
    "ITree.C21_wide_frozen"
   ],
   "note": "Every structure changing call, single and in histories; a protected item (C21_frozen) and a protected subtree (C21_frozen_subtree) stay as they are through every history of calls on any items, from every state. C21_wide_frozen: also through load_links (own tree and files), make_local, subtraction, list assignment, loading."
  },
  {
   "property": "C22",
   "status": "partial",
   "theorems": [
    "ITree.C22_frozen",
    "ITree.C22_clear_wrong",
    "ITree.C22_set",
    "ITree.C22_del_partial",
    "ITree.C22_del_value_linked",
    "ITree.C22_wide_frozen"
   ],
   "note": "set_value and set_key_value in every state; del_value/del_key_value for the read-only flag; the value through every history (C22_frozen). Defects: for linked items del_value succeeds although is_value_read_only is True (C22_del_value_linked); clear() deletes a read-only value without an error (C22_clear_wrong). C22_wide_frozen: also through load_links, make_local, subtraction, list assignment, loading."
  },
  {
   "property": "C23",
   "status": "partial",
   "theorems": [
    "ITree.C23_set_deep",
    "ITree.C23_parent_blocks",
    "ITree.C23_unset_partial",
    "ITree.C23_unset_drops_all",
    "ITree.C23_unset_unlocks",
    "ITree.C23_C24_set_stops"
   ],
   "note": "Setting is deep and exact if no linked item is below; with one it stops in the middle (C23_C24_set_stops). Unsetting one flag drops all flags (C23_unset_drops_all, C23_unset_unlocks)."
  },
  {
   "property": "C24",
   "status": "partial",
   "theorems": [
    "ITree.C07_C21_C24_extend_lists_protected",
    "ITree.C24_failed_partial",
    "ITree.C24_del_list_twice",
    "ITree.C54_C24_reverse_stops",
    "ITree.C54_C24_remove_twice",
    "ITree.C55_C24_set_stops",
    "ITree.C05_C24_insert_crash",
    "ITree.C11_C24_move_crash",
    "ITree.C09_C24_del_slice_error",
    "ITree.C10_C24_empty_family_insert",
    "ITree.C23_C24_set_stops",
    "ITree.C05_C24_insert_beyond_end",
    "ITree.C10_C21_C24_set_list_protected",
    "ITree.C10_C24_set_list_missing",
    "ITree.C09_C24_remove_many_foreign"
   ],
   "note": "For every call described by `Clean`; each exception to it has a counterexample theorem (insert, move, del slice, del list, replace, set flags)."
  },
  {
   "property": "C25",
   "status": "partial",
   "theorems": [
    "ITree.C25_no_cycle_partial",
    "ITree.C25_descent_ends_partial",
    "ITree.C25_ancestor_below",
    "ITree.C25_no_own_ancestor_partial",
    "ITree.C25_cycle",
    "ITree.C25_cycle_after_sort"
   ],
   "note": "After every allowed history. Without the exclusion (putting the root of a tree into its own tree) the code builds a cycle: C25_cycle, C25_cycle_after_sort."
  },
  {
   "property": "C26",
   "status": "proved",
   "theorems": [
    "ITree.C26_tree",
    "ITree.C26_preorder",
    "ITree.C26_each_once",
    "ITree.C26_parents_first",
    "ITree.C26_siblings_in_order"
   ],
   "note": "For every finite tree represented in the heap (every item of every reachable state is one, C26_tree)."
  },
  {
   "property": "C27",
   "status": "proved",
   "theorems": [
    "ITree.C27_down",
    "ITree.C27_up",
    "ITree.C27_zero_is_up",
    "ITree.C27_reverse",
    "ITree.C27_up_reverse",
    "ITree.C27_same_items"
   ],
   "note": "All four orders, with SELF; stack machine against recursive orders."
  },
  {
   "property": "C28",
   "status": "proved",
   "theorems": [
    "ITree.C28_hierarchical",
    "ITree.C28_filter_any",
    "ITree.C28_filtered_len"
   ],
   "note": "For every filter predicate on items."
  },
  {
   "property": "C29",
   "status": "partial",
   "theorems": [
    "ITree.C29_idx_paths",
    "ITree.C29_tag_idx_paths_partial",
    "ITree.C29_tag_idx_paths_self_twice"
   ],
   "note": "idx_paths: full. tag_idx_paths: all options except SELF with a hierarchical filter top-down, where the start item is delivered twice (C29_tag_idx_paths_self_twice)."
  },
  {
   "property": "C30",
   "status": "proved",
   "theorems": [
    "ITree.C30_deep_len",
    "ITree.C30_max_depth",
    "ITree.C30_siblings",
    "ITree.C30_siblings_zero",
    "ITree.C30_leaves",
    "ITree.C30_siblings_outside",
    "ITree.C58_C30_deep_compare"
   ],
   "note": "Full statement."
  },
  {
   "property": "C31",
   "status": "partial",
   "theorems": [
    "ITree.C31_copy",
    "ITree.C31_copy_is_step",
    "ITree.C31_same_shape",
    "ITree.C31_copy_independent_partial",
    "ITree.C31_original_independent_partial",
    "ITree.C31_old_items_untouched_partial",
    "ITree.C32_C31_copy_equal",
    "ITree.C32_C31_hash_copy"
   ],
   "note": "Shape, freshness, root, unchanged original: full. Independence of later changes: for states reached without sort/clear (C49_C12_stray_after_sort shows why)."
  },
  {
   "property": "C32",
   "status": "partial",
   "theorems": [
    "ITree.C32_refl",
    "ITree.C32_symm",
    "ITree.C32_equal_implies",
    "ITree.C32_same_content_equal",
    "ITree.C32_C31_copy_equal",
    "ITree.C32_trans_partial",
    "ITree.C32_not_transitive",
    "ITree.C32_descendant_tags_ignored",
    "ITree.C32_hash_mismatch",
    "ITree.C32_hash_content",
    "ITree.C32_C31_hash_copy",
    "ITree.C58_C32_equal_not_less",
    "ITree.C59_C32_equal",
    "ITree.C59_C32_equal_flags"
   ],
   "note": "Reflexive, symmetric, equal content => equal. False in general: transitivity (C32_not_transitive), descendant tags ignored (C32_descendant_tags_ignored), hash (C32_hash_mismatch)."
  },
  {
   "property": "C33",
   "status": "partial",
   "theorems": [
    "ITree.C33_stored_partial",
    "ITree.C33_load_shape",
    "ITree.C33_round_trip_partial",
    "ITree.C33_childless_wrong",
    "ITree.C33_flags_wrong",
    "ITree.C33_linked_stored_wrong"
   ],
   "note": "Round trip of the text for every tree with at least one child, link roots included as long as their links are not loaded (C33_load_shape, C33_round_trip_partial); flags up to the downward propagation on load (C33_flags_wrong); a childless root is dumped as invalid JSON (C33_childless_wrong). Loaded links: what is stored and loaded is proved for every consistent heap (C33_stored_partial, placeholders included); every other linked child is stored in full and comes back as a linked item without source (C33_linked_stored_wrong)."
  },
  {
   "property": "C34",
   "status": "partial",
   "theorems": [
    "ITree.C34_value_round_trip",
    "ITree.C34_orjson_inf_wrong",
    "ITree.C34_orjson_bigint_wrong"
   ],
   "note": "Stdlib json path: every supported value. orjson: inf and big ints are changed/raise (C34_orjson_inf_wrong, C34_orjson_bigint_wrong)."
  },
  {
   "property": "C35",
   "status": "proved",
   "theorems": [
    "ITree.C35_tampered",
    "ITree.C35_tampered_permission",
    "ITree.C35_accepted",
    "ITree.C35_version"
   ],
   "note": "The hash function is a parameter (any function); rejection is proved whenever the hashes differ. A text without HASH entry is not checked by the code."
  },
  {
   "property": "C36",
   "status": "partial",
   "theorems": [
    "ITree.C36_render_partial",
    "ITree.C36_order",
    "ITree.C36_level",
    "ITree.C36_one_line_each_partial",
    "ITree.C36_enumerate_wrong",
    "ITree.C36_root_filtered",
    "ITree.C36_item_text",
    "ITree.C36_binary",
    "ITree.C36_line",
    "ITree.C36_flags"
   ],
   "note": "Lines = pre-order map for all trees; enumerate without filter raises (C36_enumerate_wrong); the root is subject to the filter although documented otherwise (C36_root_filtered)."
  },
  {
   "property": "C37",
   "status": "proved",
   "theorems": [
    "ITree.C41_C37_value_in_interval",
    "MSets.C37_interval",
    "MSets.C37_interval_int",
    "MSets.C37_swapped",
    "MSets.C37_int_infinity",
    "MSets.C37_variable_limit",
    "MSets.C37_variable_missing",
    "MSets.C37_roster",
    "MSets.C37_variable_limits",
    "MSets.C37_roster_vars",
    "MSets.C37_iterable"
   ],
   "note": "Numbers are exact (int, rational, ±inf); float rounding is not modelled. Variable limits, roster variables and iterables of elements: C37_variable_limits, C37_roster_vars, C37_iterable."
  },
  {
   "property": "C38",
   "status": "partial",
   "theorems": [
    "MSets.C38_switch_twice",
    "MSets.C38_complement_partial",
    "MSets.C38_complement_vars",
    "MSets.C38_not_for_iterables"
   ],
   "note": "For every single object asked for; for iterables asked for as a whole it is false by construction (C38_not_for_iterables)."
  },
  {
   "property": "C39",
   "status": "proved",
   "theorems": [
    "MSets.C39_operators",
    "MSets.C39_union_raises",
    "MSets.C39_intersection_raises",
    "MSets.C39_intersection_miss",
    "MSets.C39_union",
    "MSets.C39_intersection",
    "MSets.C39_union_hit",
    "MSets.C39_de_morgan"
   ],
   "note": "For any list of sets whose members do not raise, plus the hit rule when later members raise. The operators + and - are union and intersection (C39_operators)."
  },
  {
   "property": "C40",
   "status": "partial",
   "theorems": [
    "MSets.C40_union_cardinality",
    "MSets.C40_intersection_cardinality",
    "MSets.C40_iter_partial",
    "MSets.C40_iter_halfopen_point",
    "MSets.C40_cardinality",
    "MSets.C40_empty",
    "MSets.C40_empty_float",
    "MSets.C40_cardinality_float_limits",
    "MSets.C40_empty_complement_of_all",
    "MSets.C40_empty_combine_complement",
    "MSets.C40_roster_cardinality",
    "MSets.C40_empty_complement",
    "MSets.C40_roster_empty_complement",
    "MSets.C40_roster_universal",
    "MSets.C40_universal_wrong"
   ],
   "note": "Counterexamples: half-open point interval, float limits, complements. is_empty_set_complement: intervals and rosters in full; wrong for combinations (C40_universal_wrong)."
  },
  {
   "property": "C41",
   "status": "partial",
   "theorems": [
    "ITree.C41_invert",
    "ITree.C41_exact_partial",
    "ITree.C41_answers",
    "ITree.C41_C37_value_in_interval",
    "ITree.C41_list_idx_wrong",
    "ITree.C41_list_pattern_wrong",
    "ITree.C41_dict_key_wrong",
    "ITree.C41_list_value_wrong"
   ],
   "note": "`Suits` names the intended use of each filter; outside it the counterexamples *_wrong."
  },
  {
   "property": "C42",
   "status": "partial",
   "theorems": [
    "DModels.C42_history",
    "DModels.C42_set_partial",
    "DModels.C42_test",
    "DModels.C42_constructor",
    "DModels.C42_stale_wrong",
    "DModels.C42_any_model_wrong",
    "DModels.C42_int_models",
    "DModels.C42_ranges",
    "DModels.C42_int_accepts",
    "DModels.C42_ascii",
    "DModels.C42_enum",
    "DModels.C42_enum_label",
    "DModels.C42_ctor_wrong"
   ],
   "note": "set(NoValue) returns a stale exception / other defects *_wrong."
  },
  {
   "property": "C43",
   "status": "partial",
   "theorems": [
    "DModels.C43_shape_partial",
    "DModels.C43_shape_sound",
    "DModels.C43_any_wrong",
    "DModels.C43_measure_partial",
    "DModels.C43_one_char_wrong"
   ],
   "note": "All shapes except (Any,); values without one-character strings."
  },
  {
   "property": "C44",
   "status": "partial",
   "theorems": [
    "ITree.C44_items_partial",
    "ITree.C44_keys_partial",
    "ITree.C44_numbered_items",
    "ITree.C44_C20_key_leads_back",
    "ITree.C44_keys_distinct",
    "ITree.C44_values",
    "ITree.C44_iter_families_partial",
    "ITree.C44_iter_families_none",
    "ITree.C44_iter_family_items",
    "ITree.C44_tags",
    "ITree.C44_tags_complete",
    "ITree.C44_never_filled",
    "ITree.C44_deep_family_items_partial",
    "ITree.C44_deep_family_items_wrong"
   ],
   "note": "Never filled item: AttributeError (C44_never_filled); iter_families delivers None for an item without children."
  },
  {
   "property": "C45",
   "status": "partial",
   "theorems": [
    "ITree.C45_is_in_partial",
    "ITree.C45_is_in_after_sort",
    "ITree.C45_is_tag_in",
    "ITree.C45_deep_is_in_partial",
    "ITree.C45_contains_item",
    "ITree.C45_contains_key",
    "ITree.C45_contains_index",
    "ITree.C45_contains_tag_never",
    "ITree.C45_contains_tag_witness",
    "ITree.C45_count",
    "ITree.C45_index",
    "ITree.C45_index_empty",
    "ITree.C45_deep_contains",
    "ITree.C45_deep_count",
    "ITree.C45_deep_is_tag_in_partial",
    "ITree.C45_deep_is_tag_in_misses_children",
    "ITree.C45_C19_deep_index_partial"
   ],
   "note": "`tag in t` never true (C45_contains_tag_never); index on an empty item delivers None; deep.is_tag_in ignores the first level."
  },
  {
   "property": "C46",
   "status": "partial",
   "theorems": [
    "ITree.C46_items_partial",
    "ITree.C46_structure_partial",
    "ITree.C46_structure_wrong",
    "ITree.C46_shared_wrong",
    "ITree.C46_order",
    "ITree.C46_locals",
    "ITree.C46_cover",
    "ITree.C46_first_load",
    "ITree.C46_reload_wrong",
    "ITree.C46_removed_wrong",
    "ITree.C46_protected"
   ],
   "note": "Keys/tags/values in deep order and protection proved; structure only if only last siblings have children (C46_structure_wrong); reload and removal defects *_wrong. File links: C76."
  },
  {
   "property": "C47",
   "status": "proved",
   "theorems": [
    "ITree.C47_add",
    "ITree.C47_add_linked",
    "ITree.C47_mul",
    "ITree.C47_rmul",
    "ITree.C47_product",
    "ITree.C47_product_linked"
   ],
   "note": "Full statement for t+u (t not a link root), t*n, n*t. `t*item` not modelled."
  },
  {
   "property": "C48",
   "status": "partial",
   "theorems": [
    "ITree.C48_by_idx_list",
    "ITree.C48_by_idx_list_path_partial",
    "ITree.C48_by_idx_list_wrong",
    "ITree.C48_by_tag",
    "ITree.C48_tag_path_wrong",
    "ITree.C48_C16_cleared_wrong",
    "ITree.C48_by_idx_slice",
    "ITree.C48_level_filter_partial",
    "ITree.C48_same_index",
    "ITree.C48_get_partial",
    "ITree.C48_single_partial",
    "ITree.C48_iter_partial",
    "ITree.C48_key_slice_wrong",
    "ITree.C48_level_filter_stops"
   ],
   "note": "Keys with slices excluded (C48_key_slice_wrong). by_idx_slice, same_index_children, by_tag in full (C48_by_idx_slice, C48_same_index, C48_by_tag); by_level_filter stops after two levels (C48_level_filter_stops), tag paths always raise (C48_tag_path_wrong), by_idx_list with negative indexes (C48_by_idx_list_wrong)."
  },
  {
   "property": "C49",
   "status": "partial",
   "theorems": [
    "ITree.C49_other_trees_untouched_partial",
    "ITree.C49_C12_stray_after_sort"
   ],
   "note": "The state before must be reached without sort/clear (C49_C12_stray_after_sort); the history itself is arbitrary: all calls of `Call` and `More` (in-depth calls, arithmetic, unpickling), allowed or not."
  },
  {
   "property": "C50",
   "status": "proved",
   "theorems": [
    "ITree.C50_argument_lists",
    "ITree.C50_constructor",
    "ITree.C50_link"
   ],
   "note": "Full statement. Argument lists as subtree, links as file and path included: C50_argument_lists; with a link (not loaded at once): C50_link."
  },
  {
   "property": "C51",
   "status": "partial",
   "theorems": [
    "MSets.C51_roster_args",
    "MSets.C51_combine_args_partial",
    "MSets.C51_combine_args_wrong",
    "MSets.C51_roster_equal",
    "MSets.C51_combine_equal_partial",
    "MSets.C51_combine_equal_wrong",
    "MSets.C51_kinds",
    "MSets.C51_init_args",
    "MSets.C51_full_args_wrong",
    "MSets.C51_equal_partial",
    "MSets.C51_equal_wrong"
   ],
   "note": "get_init_args(): full. == : for limits open/closed alike; otherwise wrong (C51_equal_wrong); get_init_args(full=True): C51_full_args_wrong. Rosters: C51_roster_args, C51_roster_equal (full). Combinations: C51_combine_args_partial (two or more members); single member and == of combinations: C51_combine_args_wrong, C51_combine_equal_wrong."
  },
  {
   "property": "C52",
   "status": "partial",
   "theorems": [
    "MSets.C52_combine_round_trip_partial",
    "MSets.C52_combine_wrong",
    "MSets.C52_combine_member_wrong",
    "MSets.C52_nested_wrong",
    "MSets.C52_roster_round_trip_partial",
    "MSets.C52_roster_signs_partial",
    "MSets.C52_roster_wrong",
    "MSets.C52_repr_round_trip_partial",
    "MSets.C52_zero_wrong"
   ],
   "note": "Limits integer (not 0), infinite or variable; an interval with limit 0 has a string form the constructor refuses (C52_zero_wrong). Float limits not modelled in the string form. Rosters: C52_roster_round_trip_partial, C52_roster_wrong. Combinations: C52_combine_round_trip_partial (two or more plain members, first member neither complement nor lower-open); C52_combine_wrong, C52_combine_member_wrong, C52_nested_wrong: a leading complement member and nested combinations are read wrongly or rejected."
  },
  {
   "property": "C53",
   "status": "proved",
   "theorems": [
    "ITree.C53_set_value",
    "ITree.C53_set_value_model",
    "ITree.C53_del_value",
    "ITree.C53_set_key_dict",
    "ITree.C53_set_key_dict_refused",
    "ITree.C53_set_key_list",
    "ITree.C53_set_key_list_else",
    "ITree.C53_no_slots",
    "ITree.C53_del_key_dict",
    "ITree.C53_del_key_list"
   ],
   "note": "Full statement for dict, list and other values; dict keys hashable and pairwise different, as in Python. Values have no identity in the model (in-place change of a shared object is not modelled)."
  },
  {
   "property": "C54",
   "status": "partial",
   "theorems": [
    "ITree.C54_deep_reverse",
    "ITree.C54_deep_reverse_twice",
    "ITree.C54_C24_reverse_stops",
    "ITree.C54_C21_reverse_keeps",
    "ITree.C54_deep_sort_partial",
    "ITree.C54_deep_remove_partial",
    "ITree.C54_C24_remove_twice"
   ],
   "note": "deep.reverse: full (n is the recursion limit). deep.sort: children are replaced by copies as by sort; keys that depend on the data of the item and below it, no links. deep.remove: without key-slices (see C48). Protected items and repeated targets stop the calls half-way (C54_C24_reverse_stops, C54_C24_remove_twice)."
  },
  {
   "property": "C55",
   "status": "partial",
   "theorems": [
    "ITree.C55_set_value",
    "ITree.C55_unset_partial",
    "ITree.C55_unset_drops_all",
    "ITree.C55_parent_blocks",
    "ITree.C55_C24_set_stops",
    "ITree.C55_live_filter",
    "ITree.C55_live_set_value",
    "ITree.C55_live_parent"
   ],
   "note": "set: full for filters that look at the item they are asked about, its flags included (C55_live_filter, C55_live_set_value: asked while the flags are being written they select what they selected before); C55_live_parent shows the difference for filters that look elsewhere. unset: only for items without other flags, all flags are dropped otherwise (C55_unset_drops_all)."
  },
  {
   "property": "C56",
   "status": "proved",
   "theorems": [
    "ITree.C56_deepcopy",
    "ITree.C56_deepcopy_returns",
    "ITree.C56_copy",
    "ITree.C56_copy_top_level",
    "ITree.C56_keep",
    "ITree.C56_copy_shares_instances",
    "ITree.C56_copy_shares_elements"
   ],
   "note": "Statement proved in full (deepcopy: whenever the recursion limit suffices, and it does for some limit). Beyond it: instances of user classes are shared by copy() although documented as copied (C56_copy_shares_instances). copy/deepcopy of the standard library are modelled; user defined __copy__/__deepcopy__ are not."
  },
  {
   "property": "C57",
   "status": "partial",
   "theorems": [
    "ITree.C57_repr_eval",
    "ITree.C57_repr_same_partial",
    "ITree.C57_pickle_stored",
    "ITree.C57_pickle",
    "ITree.C57_pickle_same_partial",
    "ITree.C57_pickle_flags_wrong",
    "ITree.C57_repr_deep_wrong"
   ],
   "note": "eval(repr(t)) and pickle give the tree with flags read-only-tree/load-links pushed down (C57_repr_eval, C57_pickle); exactly the same tree when flags are already downward closed (…_same_partial); false otherwise (C57_pickle_flags_wrong). repr hides children deeper than recursionlimit/5 (C57_repr_deep_wrong). Link roots are covered: repr shows file and path, eval and unpickling give them back (not loaded); linked children are pickled as dumps store them (C57_pickle_stored, C33). Not modelled: evaluating the repr of a loaded link (it has the flag LOAD_LINKS, so eval loads it)."
  },
  {
   "property": "C58",
   "status": "partial",
   "theorems": [
    "ITree.C58_C30_deep_compare",
    "ITree.C58_order",
    "ITree.C58_C32_equal_not_less",
    "ITree.C58_antisymm_wrong",
    "ITree.C58_filtered_len",
    "ITree.C58_tag_number_partial",
    "ITree.C58_tag_number_wrong"
   ],
   "note": "Order, filtered_len: in full. tag_number: after allowed histories; false after replacing the only member of a family (C58_tag_number_wrong). <= and >= together do not give == (C58_antisymm_wrong)."
  },
  {
   "property": "C59",
   "status": "proved",
   "theorems": [
    "ITree.C80_C59_equal_partial",
    "ITree.C59_C32_equal",
    "ITree.C59_C32_equal_flags"
   ],
   "note": "check_coupled=True: C80."
  },
  {
   "property": "C60",
   "status": "partial",
   "theorems": [
    "ITree.C60_C18_force_update",
    "ITree.C60_own_family_wrong"
   ],
   "note": "The default call in full; force_cache_update(all_keys=False) raises because the family is looked up in the item itself (C60_own_family_wrong)."
  },
  {
   "property": "C61",
   "status": "partial",
   "theorems": [
    "ITree.C61_levels_partial",
    "ITree.C61_levels_items_partial",
    "ITree.C61_levels_down_partial",
    "ITree.C61_down_wrong",
    "ITree.C61_multiple_wrong",
    "ITree.C61_stop_wrong",
    "ITree.C61_none_wrong",
    "ITree.C61_level_list_partial",
    "ITree.C61_level_list_wrong",
    "ITree.C61_level_list_zero_wrong"
   ],
   "note": "Full statement for 0 <= s <= e and st >= 1 (C61_levels_partial, C61_levels_items_partial), downwards without end (C61_levels_down_partial), lists without level 0 (C61_level_list_partial). Otherwise false: MULTIPLE without SELF never ends (C61_multiple_wrong), end before start, end 0, end with negative step (C61_stop_wrong), slice(None) (C61_none_wrong), a start too deep (C61_down_wrong), lists beginning 0, 1 (C61_level_list_wrong; C61_level_list_zero_wrong for every tree)."
  },
  {
   "property": "C62",
   "status": "partial",
   "theorems": [
    "ITree.C62_bottom_up_wrong",
    "ITree.C62_leaf_partial"
   ],
   "note": "False in the code: the queries use ITER.INNER, which does not exist, and raise AttributeError for every item with children (C62_bottom_up_wrong); leaves: C62_leaf_partial."
  },
  {
   "property": "C63",
   "status": "partial",
   "theorems": [
    "Legacy.C63_history",
    "Legacy.C63_set",
    "Legacy.C63_format_partial",
    "Legacy.C63_check_wrong"
   ],
   "note": "History and set in full (C63_history, C63_set). check() stores the value and leaves the cached text (C63_check_wrong), so the text is right only in histories without check (C63_format_partial)."
  },
  {
   "property": "C64",
   "status": "partial",
   "theorems": [
    "Legacy.C64_set",
    "Legacy.C64_delete",
    "Legacy.C64_keys",
    "Legacy.C64_model_items",
    "Legacy.C64_key_empty",
    "Legacy.C64_single_partial",
    "Legacy.C64_single_wrong",
    "Legacy.C64_guard_wrong",
    "Legacy.C64_clear"
   ],
   "note": "Storing, deleting, order, uniqueness of keys, clear in full. False in the code: d[k]=v, del and pop never reach a stored model but overwrite or remove it (C64_guard_wrong); a single object that dict() can read, wholly or in its first entries, is taken apart (C64_single_wrong)."
  },
  {
   "property": "C65",
   "status": "partial",
   "theorems": [
    "Legacy.C65_update_atomic",
    "Legacy.C65_update_partial",
    "Legacy.C65_update_replace",
    "Legacy.C65_update_wrong"
   ],
   "note": "All-or-nothing in full (C65_update_atomic). What a successful update stores: C65_update_partial; models holding a false value are replaced, KeyError/AttributeError of the validator is swallowed, replace_models=False becomes an item (C65_update_wrong)."
  },
  {
   "property": "C66",
   "status": "partial",
   "theorems": [
    "Legacy.C66_read_only_partial",
    "Legacy.C66_read_only_wrong"
   ],
   "note": "Histories without popitem and setdefault (C66_read_only_partial); these two inherited calls change the object (C66_read_only_wrong)."
  },
  {
   "property": "C67",
   "status": "partial",
   "theorems": [
    "MSets.C67_iter_in_partial",
    "MSets.C67_iter_in_wrong",
    "MSets.C67_filter_partial"
   ],
   "note": "Elements that are not (value, dict) pairs; for those intervals and rosters ignore the pair dict in iter_in (C67_iter_in_wrong)."
  },
  {
   "property": "C68",
   "status": "partial",
   "theorems": [
    "MSets.C68_supported_partial",
    "MSets.C68_equal_variable",
    "MSets.C68_open_wrong",
    "MSets.C68_swapped_wrong",
    "MSets.C68_variable_wrong",
    "MSets.C68_second_lower_wrong",
    "MSets.C68_domain_lower_wrong",
    "MSets.C68_domain_open_wrong",
    "MSets.C68_domain_wrong"
   ],
   "note": "C68_supported_partial: closed limits that are numbers and in order, (in)equalities, documented domains alone or with an upper limit; C68_equal_variable: variables in (in)equalities. Everything else fails in the code: open limits (C68_open_wrong), variables in comparisons (C68_variable_wrong), a second lower limit (C68_second_lower_wrong), a domain after a lower limit (C68_domain_lower_wrong), swapped limits (C68_swapped_wrong), C68_domain_open_wrong, C68_domain_wrong. The regular expression is not modelled: the groups it delivers are the input."
  },
  {
   "property": "C69",
   "status": "partial",
   "theorems": [
    "ITree.C69_operands_untouched_partial",
    "ITree.C69_sub_partial",
    "ITree.C69_after_reading",
    "ITree.C69_order_wrong",
    "ITree.C69_order_raises_wrong",
    "ITree.C69_missing_wrong",
    "ITree.C69_longer_wrong",
    "ITree.C69_shift_wrong",
    "ITree.C69_empty_family_wrong",
    "ITree.C69_protected_wrong"
   ],
   "note": "C69_sub_partial: all children of u have an equal partner under the same key, in the order of t, keys known (C69_after_reading: read once), t unprotected and without links; C69_operands_untouched_partial: operands never change, whatever the outcome (histories without sort and clear). False in the code otherwise: other orders delete other items or raise (C69_order_wrong, C69_order_raises_wrong), keys only u has raise (C69_missing_wrong, C69_longer_wrong), a recursive difference loses its tag and shifts the family (C69_shift_wrong), leaves an empty family (C69_empty_family_wrong), protected t raises (C69_protected_wrong). What Python's - answers for tags and values is a parameter."
  },
  {
   "property": "C70",
   "status": "partial",
   "theorems": [
    "ITree.C70_dot_partial",
    "ITree.C70_tree",
    "ITree.C70_outdated_wrong",
    "ITree.C70_link_value_wrong",
    "ITree.C70_quotes_wrong",
    "ITree.C70_grown_partial"
   ],
   "note": "C70_dot_partial: whole text, for items whose number is stored (read once) and no link root with value; C70_tree: numbers unique, every parent shown before its children. False in the code: bare tag_idx and link roots with value raise TypeError (C70_outdated_wrong, C70_link_value_wrong), quotation marks are not escaped (C70_quotes_wrong). For built-up trees no number must have been read before (C70_grown_partial)."
  },
  {
   "property": "C71",
   "status": "partial",
   "theorems": [
    "ITree.C71_stored_partial",
    "ITree.C71_filtered_partial",
    "ITree.C71_accept_all",
    "ITree.C71_none_wrong"
   ],
   "note": "C71_stored_partial: what a filtered dump stores (placeholders included) is what loads gives back; C71_filtered_partial: whole text, reload gives the hierarchically filtered tree (links of kept link roots not loaded, flags up to C33's downward propagation); C71_accept_all: same text as without filter. False in the code: when no child passes the text is no JSON (C71_none_wrong)."
  },
  {
   "property": "C72",
   "status": "partial",
   "theorems": [
    "ITree.C72_convert_partial",
    "ITree.C72_refused",
    "ITree.C72_separator_wrong",
    "ITree.C72_plain_dict_wrong",
    "ITree.C72_two_chars_wrong",
    "ITree.C72_list_wrong",
    "ITree.C72_no_data_wrong",
    "ITree.C72_link_flags_wrong"
   ],
   "note": "C72_convert_partial: every document that stands for a tree (Spec/Convert; link roots with file and path included, JSON scalars and typed containers as tags and values) gives that tree; C72_refused: version and hash checks. False in the code: data containing the separator (C72_separator_wrong), untyped dictionaries (C72_plain_dict_wrong, C72_two_chars_wrong), plain lists with typed elements (C72_list_wrong), items without data get None (C72_no_data_wrong), read-only items with a link lose their protection (C72_link_flags_wrong)."
  },
  {
   "property": "C73",
   "status": "partial",
   "theorems": [
    "ITree.C73_refused",
    "ITree.C73_make_local_partial",
    "ITree.C73_far_cache_wrong",
    "ITree.C73_undo",
    "ITree.C73_negative_wrong",
    "ITree.C73_structure_wrong"
   ],
   "note": "Refusal, replacement and undo proved for every consistent heap; the subtree keeps tags and values in deep order, its structure only if only last siblings have children (C73_structure_wrong); TypeError when tag_idx needs a full scan (C73_far_cache_wrong); a negative index puts the linked item back one position too far left (C73_negative_wrong)."
  },
  {
   "property": "C74",
   "status": "partial",
   "theorems": [
    "ITree.C80_C74_load_same",
    "ITree.C80_C74_reload_partial",
    "ITree.C74_first_load_partial",
    "ITree.C74_reload_partial",
    "ITree.C74_missing",
    "ITree.C74_no_link",
    "ITree.C74_too_deep",
    "ITree.C74_second",
    "ITree.C74_stray_wrong",
    "ITree.C74_own_link_wrong",
    "ITree.C74_circle_wrong",
    "ITree.C74_shared_wrong",
    "ITree.C74_far_cache_wrong"
   ],
   "note": "First loading and reloading proved on the heap for every consistent state whose source is apart from the link root, has no linked children and readable keys; the search for the source is a parameter. Defects: dropped linked children keep their parent, a covering link root loses its own link, a circular link loses the locals, linked children of the source are shared, an outdated key position is a TypeError (C74_*_wrong). Sources that contain link roots: C84. Calls on items that are no link root and delete_invalid_items: C76."
  },
  {
   "property": "C75",
   "status": "proved",
   "theorems": [
    "ITree.C75_file_round_trip",
    "ITree.C75_exists",
    "ITree.C75_failed_dump",
    "ITree.C75_missing"
   ],
   "note": "Relative to a file system with named texts and a sound gzip (packed data is unpacked again; a text starting with [ is not taken for packed data); values and tags as in C33."
  },
  {
   "property": "C76",
   "status": "partial",
   "theorems": [
    "ITree.C76_endless_wrong",
    "ITree.C76_file_link_partial",
    "ITree.C76_find",
    "ITree.C76_find_file",
    "ITree.C76_no_file",
    "ITree.C76_idx_path",
    "ITree.C76_tag_idx_path",
    "ITree.C76_root_tag_wrong",
    "ITree.C76_twice_wrong",
    "ITree.C76_tag_path_wrong",
    "ITree.C76_updated_wrong",
    "ITree.C76_updated",
    "ITree.C76_changed_file_wrong",
    "ITree.C76_no_links",
    "ITree.C76_load_all_partial",
    "ITree.C76_load_root_partial",
    "ITree.C76_broken",
    "ITree.C76_delete_broken",
    "ITree.C76_delete_only_partial",
    "ITree.C76_delete_next_wrong",
    "ITree.C76_delete_nested_wrong",
    "ITree.C76_only_link_roots",
    "ITree.C76_only_below"
   ],
   "note": "Target search proved for every consistent tree; load_links() on any item proved for childless, not yet loaded link roots whose sources contain no link roots and are apart from them; nested link roots: C84. Whatever the links below are and whatever the result, only link roots get other children (C76_only_link_roots, C76_only_below). Defects: a first path entry equal to the root tag is dropped even if it is a position; load_links() may never come back although no link leads to an item around the link root: with R(S(c(P)), D(Q)), P and Q leading to S, loading the links in D makes copies without end (C76_endless_wrong); searching shortens the path, so a second search finds another item; paths of plain tags are refused; is_file_updated answers the opposite, so a changed file is never loaded again (C76_*_wrong). File links are proved end to end (dump, load, link) for files without links (C76_file_link_partial). delete_invalid_items=True proved for one broken link root (C76_delete_broken, C76_delete_only_partial); with more it skips the sibling behind a removed item and fails half way if a source contains a broken link root."
  },
  {
   "property": "C77",
   "status": "partial",
   "theorems": [
    "ITree.C77_flags_repr",
    "ITree.C77_flags_repr_injective",
    "ITree.C77_link_root",
    "ITree.C77_link_root_wrong",
    "ITree.C77_link_loaded",
    "ITree.C77_rindex",
    "ITree.C77_rindex_wrong",
    "ITree.C77_accu",
    "ITree.C77_is_empty",
    "ITree.C77_to_list_partial",
    "ITree.C77_to_list_wrong",
    "ITree.C77_valid_option",
    "ITree.C77_option_str_partial",
    "ITree.C77_option_str_wrong",
    "ITree.C77_str_chain",
    "ITree.C77_str_ends"
   ],
   "note": "In full except where the code is wrong: link_root of an item that is not linked is None instead of the item (C77_link_root_wrong), rindex leaves the list reversed when the value is missing (C77_rindex_wrong), getter_to_list raises for a missing result (C77_to_list_wrong), DOWN is shown twice in option texts (C77_option_str_wrong)."
  },
  {
   "property": "C78",
   "status": "proved",
   "theorems": [
    "MSets.C78_vars",
    "MSets.C78_no_vars",
    "MSets.C78_complete",
    "MSets.C78_needed",
    "MSets.C78_needed_upper"
   ],
   "note": "In full: dependence only on vars for every set and every question that is no (value, dict) tuple; refusal for missing limits of intervals."
  },
  {
   "property": "C79",
   "status": "partial",
   "theorems": [
    "MSets.C79_order",
    "MSets.C79_vars",
    "MSets.C79_eq_refl_symm",
    "MSets.C79_eq_hash_partial",
    "MSets.C79_eq_hash_wrong",
    "MSets.C79_order_eq_wrong"
   ],
   "note": "Order in full. Equality is reflexive and symmetric; transitivity and the hash only for items with the same complement flag (C79_eq_hash_wrong, C79_order_eq_wrong)."
  },
  {
   "property": "C80",
   "status": "partial",
   "theorems": [
    "ITree.C80_set",
    "ITree.C80_invisible",
    "ITree.C80_history",
    "ITree.C80_C59_equal_partial",
    "ITree.C80_none_wrong",
    "ITree.C80_C74_load_same",
    "ITree.C80_C74_reload_partial",
    "ITree.C80_falsy_wrong",
    "ITree.C80_deep_wrong"
   ],
   "note": "Setting, histories and equal(check_coupled=True) proved; load_links proved for the children of the link root (hypotheses of C74). Defects: objects that count as false and objects of items further below are lost when a link is loaded again; never coupled and coupled with None compare as different."
  },
  {
   "property": "C81",
   "status": "proved",
   "theorems": [
    "ITree.C81_tag",
    "ITree.C81_value",
    "ITree.C81_flags",
    "ITree.C81_wide_tag",
    "ITree.C81_wide_value",
    "ITree.C81_wide_flags"
   ],
   "note": "From every state and for every history of the modelled calls; C81_wide_*: tag, value, flags also through load_links (own tree and files), make_local, subtraction, list assignment, extend with lists, loading texts and files (load_links may write the link of an item, see C74). Value objects shared between items are C56/C80."
  },
  {
   "property": "C82",
   "status": "partial",
   "theorems": [
    "ITree.C82_any_text_partial",
    "ITree.C82_untouched_partial",
    "ITree.C82_any_file_partial"
   ],
   "note": "Any text and any file (the hash, the names and the classes in the text are parameters). Missing: link roots with the flag LOAD_LINKS in the text, whose links the constructor loads at once (C82_untouched_partial holds for the modelled loader without this restriction, for histories without sort and clear)."
  },
  {
   "property": "C83",
   "status": "partial",
   "theorems": [
    "ITree.C83_refused_partial",
    "ITree.C83_call_partial",
    "ITree.C83_kept_partial"
   ],
   "note": "For circles of any length inside one tree, whatever other links and files are loaded on the way (proved of the modelled disk and loader). Missing: circles that lead through files or lie below link roots or linked items; the local children of the link roots are lost (C74_circle_wrong)."
  },
  {
   "property": "C84",
   "status": "partial",
   "theorems": [
    "ITree.C84_load_partial",
    "ITree.C84_loaded_partial",
    "ITree.C84_only_partial",
    "ITree.C84_ready_partial",
    "ITree.C84_again_partial",
    "ITree.C84_any_order_partial",
    "ITree.C84_copies_wrong"
   ],
   "note": "Own-tree links nested to any depth; in states reached by building trees and loading such links the call succeeds (C84_load_partial), in all states without sort and clear before its result is described when it delivers one (C84_loaded_partial) and what it may change always (C84_only_partial). Link roots needed for several others, some of them loaded before, in any order and more than once: C84_ready_partial, C84_again_partial, C84_any_order_partial. Defect: a copy of a link root is never marked as loaded, so load_links() on the tree loads it again and turns its first linked child into a cover (C84_copies_wrong). Missing: paths through link roots, links into files on the way, link roots that have children of their own."
  }
 ]
}