{
 "C01": {
  "status": "partial",
  "note": "Proved after every history of `Allowed` calls and of load_links on own-tree link roots without children (`MayLoad`) and of in-depth calls (reverse, sort, remove, flags), force_cache_update, remove(list), clear(local_only), +, *, eval/unpickling (`MoreOK`; any length, exceptions caught by the caller). Missing because false in the code: insert below -len (C05_C01_insert_below), del of a slice (C09_C01_del_slice), replacing the only member of a family (C10_C01_empty_family), renaming an item that has an equal same-tag sibling (C12_C01_rename_twin)."
 },
 "C02": {
  "status": "partial",
  "note": "Child => parent, no duplicates, single parent: after every allowed history (as C01). Both directions: for allowed histories without sort/clear, which leave former children with their old parent (C15_sort_replaces, C16_clear_leftovers); t[tag]=x does the same (C10_C02_replace_family)."
 },
 "C03": {
  "note": "Full statement, on every state reached by allowed calls; the two exclusions of `Allowed` for append concern only the root of the receiver's own tree (C25_cycle)."
 },
 "C04": {
  "note": "Full statement, as C03."
 },
 "C05": {
  "status": "partial",
  "note": "If the call returns and k >= -len, the result is list.insert (C05_insert_partial). Returning is guaranteed when no cached position is off by more than 19 (C05_insert_near), e.g. for the next 20 insertions inside the list after the positions were read (C05_inserts_after_reading), for a new tag and at the ends; otherwise the family search may raise AttributeError (C05_C24_insert_crash, C05_C24_insert_beyond_end). False below -len (C05_C01_insert_below); an item as target is never accepted (C05_insert_item_target)."
 },
 "C06": {
  "note": "For every family, every absolute position and every cache content."
 },
 "C07": {
  "status": "proved",
  "note": "Items and values: C07_extend. An item as argument, wherever it is: C07_extend_tree. Argument lists: C07_extend_lists; a Python list among the items is never a value (C07_list_is_no_value, documented behaviour of the code, not of the other methods)."
 },
 "C08": {
  "status": "partial",
  "note": "Missing because false: an argument that already is a child of the receiver (C08_extendleft_own_child)."
 },
 "C09": {
  "status": "proved",
  "note": "Statement (integer indexes) proved in full, also for keys and remove. The slice form of del is defective: C09_C01_del_slice, C09_C24_del_slice_error. remove with several items: C09_remove_many, C09_C24_remove_many_foreign."
 },
 "C10": {
  "status": "partial",
  "note": "If the call returns; across tags only if the old family has another member. Otherwise false (C10_C01_empty_family, C10_C24_empty_family_insert, C10_C02_replace_family). Lists: C10_set_list for targets denoting several children (each new object with the tag of the one it replaces); false for a target denoting one child (C10_set_list_single_wrong) and when the tag of the new item is the integer used as index (C10_int_tag_wrong)."
 },
 "C11": {
  "status": "partial",
  "note": "x.move(): full. x.move(k): if it returns, x is taken out and list.insert(k,x) done; this is `before the item at k` iff x stood at or behind k (C11_move_before, C11_move_lands_after). Crash of the family search: C11_C24_move_crash. It returns when no cached position is off by more than 18 (C11_move_near)."
 },
 "C12": {
  "status": "partial",
  "note": "Proved if no same-tag sibling compares equal; otherwise the wrong item is taken out of the family (C12_C01_rename_twin)."
 },
 "C13": {
  "status": "partial",
  "note": "Item with children: proved. Never filled item: AttributeError (C13_reverse_never_filled)."
 },
 "C14": {
  "status": "partial",
  "note": "|n| <= len proved; beyond len the call raises after taking all children out (C14_rotate_too_far)."
 },
 "C15": {
  "status": "partial",
  "note": "Order and stability proved; the items are replaced by copies, so identity is not kept (C15_sort_replaces)."
 },
 "C16": {
  "status": "partial",
  "note": "Children and value are dropped; former children keep their parent (C16_clear_leftovers) and all flags are cleared (C16_clear_drops_flags). clear(local_only=True) on link roots is described exactly for every reachable state (C16_clear_local); it deletes while iterating, so it leaves every second local child (C16_local_only_wrong) and is refused on loaded link roots whose first child is linked (C16_local_only_loaded_wrong)."
 },
 "C17": {
  "note": "For every child in every reachable state and, separately, for arbitrary cache contents."
 },
 "C18": {
  "status": "partial",
  "note": "Position and lookup right in every reachable state; missing: the first read may deliver the bare number instead of the pair (C18_tag_idx_bare); the second read always delivers the pair (C18_tag_idx_second). For trees that were only built up (constructors, append, appendleft-free extends, copies, reads) the first read already delivers the pair and changes nothing (C18_grown)."
 },
 "C19": {
  "status": "partial",
  "note": "idx_path full (states without sort/clear, where parents are meaningful). tag_idx_path: elements may be bare numbers on the first read, right on the second read. For built-up trees every element is a pair at the first read (C19_grown)."
 },
 "C20": {
  "note": "Full statement on every reachable state."
 },
 "C21": {
  "note": "Every structure changing call, single and in histories; a protected item (C21_frozen) and a protected subtree (C21_frozen_subtree) stay as they are through every history of calls on any items, from every state. C21_wide_frozen: also through load_links (own tree and files), make_local, subtraction, list assignment, loading."
 },
 "C22": {
  "status": "partial",
  "note": "set_value and set_key_value in every state; del_value/del_key_value for the read-only flag; the value through every history (C22_frozen). Defects: for linked items del_value succeeds although is_value_read_only is True (C22_del_value_linked); clear() deletes a read-only value without an error (C22_clear_wrong). C22_wide_frozen: also through load_links, make_local, subtraction, list assignment, loading."
 },
 "C23": {
  "status": "partial",
  "note": "Setting is deep and exact if no linked item is below; with one it stops in the middle (C23_C24_set_stops). Unsetting one flag drops all flags (C23_unset_drops_all, C23_unset_unlocks)."
 },
 "C24": {
  "status": "partial",
  "note": "For every call described by `Clean`; each exception to it has a counterexample theorem (insert, move, del slice, del list, replace, set flags)."
 },
 "C25": {
  "status": "partial",
  "note": "After every allowed history. Without the exclusion (putting the root of a tree into its own tree) the code builds a cycle: C25_cycle, C25_cycle_after_sort."
 },
 "C26": {
  "note": "For every finite tree represented in the heap (every item of every reachable state is one, C26_tree)."
 },
 "C27": {
  "note": "All four orders, with SELF; stack machine against recursive orders."
 },
 "C28": {
  "note": "For every filter predicate on items."
 },
 "C29": {
  "status": "partial",
  "note": "idx_paths: full. tag_idx_paths: all options except SELF with a hierarchical filter top-down, where the start item is delivered twice (C29_tag_idx_paths_self_twice)."
 },
 "C30": {
  "note": "Full statement."
 },
 "C31": {
  "status": "partial",
  "note": "Shape, freshness, root, unchanged original: full. Independence of later changes: for states reached without sort/clear (C49_C12_stray_after_sort shows why)."
 },
 "C32": {
  "status": "partial",
  "note": "Reflexive, symmetric, equal content => equal. False in general: transitivity (C32_not_transitive), descendant tags ignored (C32_descendant_tags_ignored), hash (C32_hash_mismatch)."
 },
 "C33": {
  "status": "partial",
  "note": "Round trip of the text for every tree with at least one child, link roots included as long as their links are not loaded (C33_load_shape, C33_round_trip_partial); flags up to the downward propagation on load (C33_flags_wrong); a childless root is dumped as invalid JSON (C33_childless_wrong). Loaded links: what is stored and loaded is proved for every consistent heap (C33_stored_partial, placeholders included); every other linked child is stored in full and comes back as a linked item without source (C33_linked_stored_wrong)."
 },
 "C34": {
  "status": "partial",
  "note": "Stdlib json path: every supported value. orjson: inf and big ints are changed/raise (C34_orjson_inf_wrong, C34_orjson_bigint_wrong)."
 },
 "C35": {
  "note": "The hash function is a parameter (any function); rejection is proved whenever the hashes differ. A text without HASH entry is not checked by the code."
 },
 "C36": {
  "status": "partial",
  "note": "Lines = pre-order map for all trees; enumerate without filter raises (C36_enumerate_wrong); the root is subject to the filter although documented otherwise (C36_root_filtered)."
 },
 "C37": {
  "note": "Numbers are exact (int, rational, ±inf); float rounding is not modelled. Variable limits, roster variables and iterables of elements: C37_variable_limits, C37_roster_vars, C37_iterable."
 },
 "C38": {
  "status": "partial",
  "note": "For every single object asked for; for iterables asked for as a whole it is false by construction (C38_not_for_iterables)."
 },
 "C39": {
  "note": "For any list of sets whose members do not raise, plus the hit rule when later members raise. The operators + and - are union and intersection (C39_operators)."
 },
 "C40": {
  "status": "partial",
  "note": "Counterexamples: half-open point interval, float limits, complements. is_empty_set_complement: intervals and rosters in full; wrong for combinations (C40_universal_wrong)."
 },
 "C41": {
  "status": "partial",
  "note": "`Suits` names the intended use of each filter; outside it the counterexamples *_wrong."
 },
 "C42": {
  "status": "partial",
  "note": "set(NoValue) returns a stale exception / other defects *_wrong."
 },
 "C43": {
  "status": "partial",
  "note": "All shapes except (Any,); values without one-character strings."
 },
 "C44": {
  "status": "partial",
  "note": "Never filled item: AttributeError (C44_never_filled); iter_families delivers None for an item without children."
 },
 "C45": {
  "status": "partial",
  "note": "`tag in t` never true (C45_contains_tag_never); index on an empty item delivers None; deep.is_tag_in ignores the first level."
 },
 "C46": {
  "status": "partial",
  "note": "Keys/tags/values in deep order and protection proved; structure only if only last siblings have children (C46_structure_wrong); reload and removal defects *_wrong. File links: C76."
 },
 "C47": {
  "note": "Full statement for t+u (t not a link root), t*n, n*t. `t*item` not modelled."
 },
 "C48": {
  "status": "partial",
  "note": "Keys with slices excluded (C48_key_slice_wrong). by_idx_slice, same_index_children, by_tag in full (C48_by_idx_slice, C48_same_index, C48_by_tag); by_level_filter stops after two levels (C48_level_filter_stops), tag paths always raise (C48_tag_path_wrong), by_idx_list with negative indexes (C48_by_idx_list_wrong)."
 },
 "C49": {
  "status": "partial",
  "note": "The state before must be reached without sort/clear (C49_C12_stray_after_sort); the history itself is arbitrary: all calls of `Call` and `More` (in-depth calls, arithmetic, unpickling), allowed or not."
 },
 "C50": {
  "note": "Full statement. Argument lists as subtree, links as file and path included: C50_argument_lists; with a link (not loaded at once): C50_link."
 },
 "C51": {
  "status": "partial",
  "note": "get_init_args(): full. == : for limits open/closed alike; otherwise wrong (C51_equal_wrong); get_init_args(full=True): C51_full_args_wrong. Rosters: C51_roster_args, C51_roster_equal (full). Combinations: C51_combine_args_partial (two or more members); single member and == of combinations: C51_combine_args_wrong, C51_combine_equal_wrong."
 },
 "C52": {
  "status": "partial",
  "note": "Limits integer (not 0), infinite or variable; an interval with limit 0 has a string form the constructor refuses (C52_zero_wrong). Float limits not modelled in the string form. Rosters: C52_roster_round_trip_partial, C52_roster_wrong. Combinations: C52_combine_round_trip_partial (two or more plain members, first member neither complement nor lower-open); C52_combine_wrong, C52_combine_member_wrong, C52_nested_wrong: a leading complement member and nested combinations are read wrongly or rejected."
 },
 "C53": {
  "note": "Full statement for dict, list and other values; dict keys hashable and pairwise different, as in Python. Values have no identity in the model (in-place change of a shared object is not modelled)."
 },
 "C54": {
  "status": "partial",
  "note": "deep.reverse: full (n is the recursion limit). deep.sort: children are replaced by copies as by sort; keys that depend on the data of the item and below it, no links. deep.remove: without key-slices (see C48). Protected items and repeated targets stop the calls half-way (C54_C24_reverse_stops, C54_C24_remove_twice)."
 },
 "C55": {
  "status": "partial",
  "note": "set: full for filters that look at the item they are asked about, its flags included (C55_live_filter, C55_live_set_value: asked while the flags are being written they select what they selected before); C55_live_parent shows the difference for filters that look elsewhere. unset: only for items without other flags, all flags are dropped otherwise (C55_unset_drops_all)."
 },
 "C56": {
  "status": "proved",
  "note": "Statement proved in full (deepcopy: whenever the recursion limit suffices, and it does for some limit). Beyond it: instances of user classes are shared by copy() although documented as copied (C56_copy_shares_instances). copy/deepcopy of the standard library are modelled; user defined __copy__/__deepcopy__ are not."
 },
 "C57": {
  "status": "partial",
  "note": "eval(repr(t)) and pickle give the tree with flags read-only-tree/load-links pushed down (C57_repr_eval, C57_pickle); exactly the same tree when flags are already downward closed (…_same_partial); false otherwise (C57_pickle_flags_wrong). repr hides children deeper than recursionlimit/5 (C57_repr_deep_wrong). Link roots are covered: repr shows file and path, eval and unpickling give them back (not loaded); linked children are pickled as dumps store them (C57_pickle_stored, C33). Not modelled: evaluating the repr of a loaded link (it has the flag LOAD_LINKS, so eval loads it)."
 },
 "C58": {
  "status": "partial",
  "note": "Order, filtered_len: in full. tag_number: after allowed histories; false after replacing the only member of a family (C58_tag_number_wrong). <= and >= together do not give == (C58_antisymm_wrong)."
 },
 "C59": {
  "status": "proved",
  "note": "check_coupled=True: C80."
 },
 "C60": {
  "status": "partial",
  "note": "The default call in full; force_cache_update(all_keys=False) raises because the family is looked up in the item itself (C60_own_family_wrong)."
 },
 "C61": {
  "status": "partial",
  "note": "Full statement for 0 <= s <= e and st >= 1 (C61_levels_partial, C61_levels_items_partial), downwards without end (C61_levels_down_partial), lists without level 0 (C61_level_list_partial). Otherwise false: MULTIPLE without SELF never ends (C61_multiple_wrong), end before start, end 0, end with negative step (C61_stop_wrong), slice(None) (C61_none_wrong), a start too deep (C61_down_wrong), lists beginning 0, 1 (C61_level_list_wrong; C61_level_list_zero_wrong for every tree)."
 },
 "C62": {
  "status": "partial",
  "note": "False in the code: the queries use ITER.INNER, which does not exist, and raise AttributeError for every item with children (C62_bottom_up_wrong); leaves: C62_leaf_partial."
 },
 "C63": {
  "status": "partial",
  "note": "History and set in full (C63_history, C63_set). check() stores the value and leaves the cached text (C63_check_wrong), so the text is right only in histories without check (C63_format_partial)."
 },
 "C64": {
  "status": "partial",
  "note": "Storing, deleting, order, uniqueness of keys, clear in full. False in the code: d[k]=v, del and pop never reach a stored model but overwrite or remove it (C64_guard_wrong); a single object that dict() can read, wholly or in its first entries, is taken apart (C64_single_wrong)."
 },
 "C65": {
  "status": "partial",
  "note": "All-or-nothing in full (C65_update_atomic). What a successful update stores: C65_update_partial; models holding a false value are replaced, KeyError/AttributeError of the validator is swallowed, replace_models=False becomes an item (C65_update_wrong)."
 },
 "C66": {
  "status": "partial",
  "note": "Histories without popitem and setdefault (C66_read_only_partial); these two inherited calls change the object (C66_read_only_wrong)."
 },
 "C67": {
  "status": "partial",
  "note": "Elements that are not (value, dict) pairs; for those intervals and rosters ignore the pair dict in iter_in (C67_iter_in_wrong)."
 },
 "C68": {
  "status": "partial",
  "note": "C68_supported_partial: closed limits that are numbers and in order, (in)equalities, documented domains alone or with an upper limit; C68_equal_variable: variables in (in)equalities. Everything else fails in the code: open limits (C68_open_wrong), variables in comparisons (C68_variable_wrong), a second lower limit (C68_second_lower_wrong), a domain after a lower limit (C68_domain_lower_wrong), swapped limits (C68_swapped_wrong), C68_domain_open_wrong, C68_domain_wrong. The regular expression is not modelled: the groups it delivers are the input."
 },
 "C69": {
  "status": "partial",
  "note": "C69_sub_partial: all children of u have an equal partner under the same key, in the order of t, keys known (C69_after_reading: read once), t unprotected and without links; C69_operands_untouched_partial: operands never change, whatever the outcome (histories without sort and clear). False in the code otherwise: other orders delete other items or raise (C69_order_wrong, C69_order_raises_wrong), keys only u has raise (C69_missing_wrong, C69_longer_wrong), a recursive difference loses its tag and shifts the family (C69_shift_wrong), leaves an empty family (C69_empty_family_wrong), protected t raises (C69_protected_wrong). What Python's - answers for tags and values is a parameter."
 },
 "C70": {
  "status": "partial",
  "note": "C70_dot_partial: whole text, for items whose number is stored (read once) and no link root with value; C70_tree: numbers unique, every parent shown before its children. False in the code: bare tag_idx and link roots with value raise TypeError (C70_outdated_wrong, C70_link_value_wrong), quotation marks are not escaped (C70_quotes_wrong). For built-up trees no number must have been read before (C70_grown_partial)."
 },
 "C71": {
  "status": "partial",
  "note": "C71_stored_partial: what a filtered dump stores (placeholders included) is what loads gives back; C71_filtered_partial: whole text, reload gives the hierarchically filtered tree (links of kept link roots not loaded, flags up to C33's downward propagation); C71_accept_all: same text as without filter. False in the code: when no child passes the text is no JSON (C71_none_wrong)."
 },
 "C72": {
  "status": "partial",
  "note": "C72_convert_partial: every document that stands for a tree (Spec/Convert; link roots with file and path included, JSON scalars and typed containers as tags and values) gives that tree; C72_refused: version and hash checks. False in the code: data containing the separator (C72_separator_wrong), untyped dictionaries (C72_plain_dict_wrong, C72_two_chars_wrong), plain lists with typed elements (C72_list_wrong), items without data get None (C72_no_data_wrong), read-only items with a link lose their protection (C72_link_flags_wrong)."
 },
 "C73": {
  "status": "partial",
  "note": "Refusal, replacement and undo proved for every consistent heap; the subtree keeps tags and values in deep order, its structure only if only last siblings have children (C73_structure_wrong); TypeError when tag_idx needs a full scan (C73_far_cache_wrong); a negative index puts the linked item back one position too far left (C73_negative_wrong)."
 },
 "C74": {
  "status": "partial",
  "note": "First loading and reloading proved on the heap for every consistent state whose source is apart from the link root, has no linked children and readable keys; the search for the source is a parameter. Defects: dropped linked children keep their parent, a covering link root loses its own link, a circular link loses the locals, linked children of the source are shared, an outdated key position is a TypeError (C74_*_wrong). Sources that contain link roots: C84. Calls on items that are no link root and delete_invalid_items: C76."
 },
 "C75": {
  "status": "proved",
  "note": "Relative to a file system with named texts and a sound gzip (packed data is unpacked again; a text starting with [ is not taken for packed data); values and tags as in C33."
 },
 "C76": {
  "status": "partial",
  "note": "Target search proved for every consistent tree; load_links() on any item proved for childless, not yet loaded link roots whose sources contain no link roots and are apart from them; nested link roots: C84. Whatever the links below are and whatever the result, only link roots get other children (C76_only_link_roots, C76_only_below). Defects: a first path entry equal to the root tag is dropped even if it is a position; load_links() may never come back although no link leads to an item around the link root: with R(S(c(P)), D(Q)), P and Q leading to S, loading the links in D makes copies without end (C76_endless_wrong); searching shortens the path, so a second search finds another item; paths of plain tags are refused; is_file_updated answers the opposite, so a changed file is never loaded again (C76_*_wrong). File links are proved end to end (dump, load, link) for files without links (C76_file_link_partial). delete_invalid_items=True proved for one broken link root (C76_delete_broken, C76_delete_only_partial); with more it skips the sibling behind a removed item and fails half way if a source contains a broken link root."
 },
 "C77": {
  "status": "partial",
  "note": "In full except where the code is wrong: link_root of an item that is not linked is None instead of the item (C77_link_root_wrong), rindex leaves the list reversed when the value is missing (C77_rindex_wrong), getter_to_list raises for a missing result (C77_to_list_wrong), DOWN is shown twice in option texts (C77_option_str_wrong)."
 },
 "C78": {
  "status": "proved",
  "note": "In full: dependence only on vars for every set and every question that is no (value, dict) tuple; refusal for missing limits of intervals."
 },
 "C79": {
  "status": "partial",
  "note": "Order in full. Equality is reflexive and symmetric; transitivity and the hash only for items with the same complement flag (C79_eq_hash_wrong, C79_order_eq_wrong)."
 },
 "C80": {
  "status": "partial",
  "note": "Setting, histories and equal(check_coupled=True) proved; load_links proved for the children of the link root (hypotheses of C74). Defects: objects that count as false and objects of items further below are lost when a link is loaded again; never coupled and coupled with None compare as different."
 },
 "C81": {
  "note": "From every state and for every history of the modelled calls; C81_wide_*: tag, value, flags also through load_links (own tree and files), make_local, subtraction, list assignment, extend with lists, loading texts and files (load_links may write the link of an item, see C74). Value objects shared between items are C56/C80."
 },
 "C82": {
  "note": "Any text and any file (the hash, the names and the classes in the text are parameters). Missing: link roots with the flag LOAD_LINKS in the text, whose links the constructor loads at once (C82_untouched_partial holds for the modelled loader without this restriction, for histories without sort and clear)."
 },
 "C83": {
  "note": "For circles of any length inside one tree, whatever other links and files are loaded on the way (proved of the modelled disk and loader). Missing: circles that lead through files or lie below link roots or linked items; the local children of the link roots are lost (C74_circle_wrong)."
 },
 "C84": {
  "note": "Own-tree links nested to any depth; in states reached by building trees and loading such links the call succeeds (C84_load_partial), in all states without sort and clear before its result is described when it delivers one (C84_loaded_partial) and what it may change always (C84_only_partial). Link roots needed for several others, some of them loaded before, in any order and more than once: C84_ready_partial, C84_again_partial, C84_any_order_partial. Defect: a copy of a link root is never marked as loaded, so load_links() on the tree loads it again and turns its first linked child into a cover (C84_copies_wrong). Missing: paths through link roots, links into files on the way, link roots that have children of their own."
 }
}