# Axioms per theorem

Output of `#print axioms` for every theorem named in MANIFEST.json, grouped. No axiom is declared in this project.

## none (3 theorems)

`ITree.C48_level_filter_stops` `ITree.C77_to_list_partial` `ITree.C77_to_list_wrong`

## propext (26 theorems)

`DModels.C42_any_model_wrong` `DModels.C42_constructor` `DModels.C42_ranges` `DModels.C42_stale_wrong` `DModels.C42_test` `ITree.C17_idx_root` `ITree.C18_tag_idx_root` `ITree.C30_siblings_zero` `ITree.C32_hash_content` `ITree.C36_order` `ITree.C44_never_filled` `ITree.C44_numbered_items` `ITree.C44_values` `ITree.C45_contains_tag_never` `ITree.C48_level_filter_partial` `ITree.C76_no_file` `ITree.C76_updated` `ITree.C76_updated_wrong` `ITree.C77_is_empty` `ITree.C80_set` `Legacy.C63_set` `Legacy.C64_guard_wrong` `Legacy.C64_key_empty` `Legacy.C64_single_wrong` `Legacy.C66_read_only_partial` `MSets.C38_switch_twice`

## propext, Quot.sound (100 theorems)

`DModels.C42_ctor_wrong` `DModels.C42_enum_label` `DModels.C42_set_partial` `DModels.C43_one_char_wrong` `ITree.C03_append_owned` `ITree.C04_appendleft_owned` `ITree.C05_insert_item_target` `ITree.C07_C21_C24_extend_lists_protected` `ITree.C09_C24_remove_many_foreign` `ITree.C09_del_range` `ITree.C10_C21_C24_set_list_protected` `ITree.C10_C24_set_list_missing` `ITree.C22_del_partial` `ITree.C22_del_value_linked` `ITree.C23_parent_blocks` `ITree.C23_unset_drops_all` `ITree.C23_unset_partial` `ITree.C26_preorder` `ITree.C27_down` `ITree.C27_reverse` `ITree.C27_same_items` `ITree.C27_up` `ITree.C27_up_reverse` `ITree.C27_zero_is_up` `ITree.C31_same_shape` `ITree.C36_flags` `ITree.C36_level` `ITree.C44_iter_families_none` `ITree.C45_index_empty` `ITree.C46_cover` `ITree.C46_first_load` `ITree.C46_locals` `ITree.C46_order` `ITree.C46_reload_wrong` `ITree.C46_removed_wrong` `ITree.C46_shared_wrong` `ITree.C47_add_linked` `ITree.C47_product_linked` `ITree.C48_get_partial` `ITree.C48_iter_partial` `ITree.C48_single_partial` `ITree.C53_del_value` `ITree.C53_set_value` `ITree.C53_set_value_model` `ITree.C54_C21_reverse_keeps` `ITree.C55_parent_blocks` `ITree.C56_copy_top_level` `ITree.C58_filtered_len` `ITree.C61_level_list_partial` `ITree.C62_bottom_up_wrong` `ITree.C70_link_value_wrong` `ITree.C73_refused` `ITree.C74_circle_wrong` `ITree.C74_missing` `ITree.C74_no_link` `ITree.C74_own_link_wrong` `ITree.C74_second` `ITree.C74_shared_wrong` `ITree.C74_too_deep` `ITree.C76_changed_file_wrong` `ITree.C76_find` `ITree.C76_find_file` `ITree.C77_link_root_wrong` `ITree.C77_rindex_wrong` `ITree.C80_C59_equal_partial` `ITree.C80_C74_load_same` `Legacy.C64_delete` `Legacy.C64_keys` `Legacy.C64_model_items` `Legacy.C64_set` `Legacy.C64_single_partial` `Legacy.C65_update_replace` `Legacy.C65_update_wrong` `Legacy.C66_read_only_wrong` `MSets.C37_int_infinity` `MSets.C37_iterable` `MSets.C37_variable_missing` `MSets.C38_complement_partial` `MSets.C38_complement_vars` `MSets.C38_not_for_iterables` `MSets.C39_de_morgan` `MSets.C39_intersection_miss` `MSets.C39_intersection_raises` `MSets.C39_union_hit` `MSets.C39_union_raises` `MSets.C51_combine_args_partial` `MSets.C51_combine_equal_wrong` `MSets.C51_equal_wrong` `MSets.C51_kinds` `MSets.C51_roster_args` `MSets.C52_combine_member_wrong` `MSets.C67_filter_partial` `MSets.C67_iter_in_partial` `MSets.C67_iter_in_wrong` `MSets.C78_complete` `MSets.C78_needed` `MSets.C78_no_vars` `MSets.C78_vars` `MSets.C79_order_eq_wrong` `MSets.C79_vars`

## propext, Classical.choice, Quot.sound (421 theorems)

`DModels.C42_ascii` `DModels.C42_enum` `DModels.C42_history` `DModels.C42_int_accepts` `DModels.C42_int_models` `DModels.C43_any_wrong` `DModels.C43_measure_partial` `DModels.C43_shape_partial` `DModels.C43_shape_sound` `ITree.C01_family_key_partial` `ITree.C01_family_view_partial` `ITree.C02_parent_child_partial` `ITree.C02_parent_iff_partial` `ITree.C03_append_item` `ITree.C03_append_value` `ITree.C04_appendleft_item` `ITree.C04_appendleft_value` `ITree.C05_C01_insert_below` `ITree.C05_C24_insert_beyond_end` `ITree.C05_C24_insert_crash` `ITree.C05_insert_near` `ITree.C05_insert_partial` `ITree.C05_insert_returns` `ITree.C05_inserts` `ITree.C05_inserts_after_reading` `ITree.C06_family_position` `ITree.C07_extend` `ITree.C07_extend_lists` `ITree.C07_extend_tree` `ITree.C07_list_is_no_value` `ITree.C08_extendleft_own_child` `ITree.C08_extendleft_partial` `ITree.C09_C01_del_slice` `ITree.C09_C24_del_slice_error` `ITree.C09_del_child` `ITree.C09_del_key` `ITree.C09_remove` `ITree.C09_remove_many` `ITree.C10_C01_empty_family` `ITree.C10_C02_replace_family` `ITree.C10_C24_empty_family_insert` `ITree.C10_int_tag_wrong` `ITree.C10_set_list` `ITree.C10_set_list_single_wrong` `ITree.C10_setitem_partial` `ITree.C11_C24_move_crash` `ITree.C11_move_before` `ITree.C11_move_int_partial` `ITree.C11_move_lands_after` `ITree.C11_move_last` `ITree.C11_move_near` `ITree.C12_C01_rename_twin` `ITree.C12_rename_partial` `ITree.C12_rename_root` `ITree.C13_reverse_never_filled` `ITree.C13_reverse_partial` `ITree.C13_reverse_twice` `ITree.C14_rotate_back` `ITree.C14_rotate_left_partial` `ITree.C14_rotate_right_partial` `ITree.C14_rotate_too_far` `ITree.C15_sort_partial` `ITree.C15_sort_replaces` `ITree.C16_clear_drops_flags` `ITree.C16_clear_leftovers` `ITree.C16_clear_local` `ITree.C16_clear_partial` `ITree.C16_local_only_loaded_wrong` `ITree.C16_local_only_partial` `ITree.C16_local_only_wrong` `ITree.C17_idx_any_cache` `ITree.C17_idx_child` `ITree.C17_reading_refreshes` `ITree.C18_grown` `ITree.C18_tag_idx_bare` `ITree.C18_tag_idx_bare_any_cache` `ITree.C18_tag_idx_partial` `ITree.C18_tag_idx_second` `ITree.C19_grown` `ITree.C19_idx_path` `ITree.C19_neighbours` `ITree.C19_tag_idx_path_partial` `ITree.C19_tag_idx_path_second` `ITree.C20_index` `ITree.C20_index_miss` `ITree.C20_key` `ITree.C20_key_miss` `ITree.C20_key_slice` `ITree.C20_only_children` `ITree.C20_slice` `ITree.C21_frozen` `ITree.C21_frozen_subtree` `ITree.C21_locked` `ITree.C21_locked_history` `ITree.C21_locked_remove` `ITree.C21_wide_frozen` `ITree.C22_clear_wrong` `ITree.C22_frozen` `ITree.C22_set` `ITree.C22_wide_frozen` `ITree.C23_C24_set_stops` `ITree.C23_set_deep` `ITree.C23_unset_unlocks` `ITree.C24_del_list_twice` `ITree.C24_failed_partial` `ITree.C25_ancestor_below` `ITree.C25_cycle` `ITree.C25_cycle_after_sort` `ITree.C25_descent_ends_partial` `ITree.C25_no_cycle_partial` `ITree.C25_no_own_ancestor_partial` `ITree.C26_each_once` `ITree.C26_parents_first` `ITree.C26_siblings_in_order` `ITree.C26_tree` `ITree.C28_filter_any` `ITree.C28_filtered_len` `ITree.C28_hierarchical` `ITree.C29_idx_paths` `ITree.C29_tag_idx_paths_partial` `ITree.C29_tag_idx_paths_self_twice` `ITree.C30_deep_len` `ITree.C30_leaves` `ITree.C30_max_depth` `ITree.C30_siblings` `ITree.C30_siblings_outside` `ITree.C31_copy` `ITree.C31_copy_independent_partial` `ITree.C31_copy_is_step` `ITree.C31_old_items_untouched_partial` `ITree.C31_original_independent_partial` `ITree.C32_C31_copy_equal` `ITree.C32_C31_hash_copy` `ITree.C32_descendant_tags_ignored` `ITree.C32_equal_implies` `ITree.C32_hash_mismatch` `ITree.C32_not_transitive` `ITree.C32_refl` `ITree.C32_same_content_equal` `ITree.C32_symm` `ITree.C32_trans_partial` `ITree.C33_childless_wrong` `ITree.C33_flags_wrong` `ITree.C33_linked_stored_wrong` `ITree.C33_load_shape` `ITree.C33_round_trip_partial` `ITree.C33_stored_partial` `ITree.C34_orjson_bigint_wrong` `ITree.C34_orjson_inf_wrong` `ITree.C34_value_round_trip` `ITree.C35_accepted` `ITree.C35_tampered` `ITree.C35_tampered_permission` `ITree.C35_version` `ITree.C36_binary` `ITree.C36_enumerate_wrong` `ITree.C36_item_text` `ITree.C36_line` `ITree.C36_one_line_each_partial` `ITree.C36_render_partial` `ITree.C36_root_filtered` `ITree.C41_C37_value_in_interval` `ITree.C41_answers` `ITree.C41_dict_key_wrong` `ITree.C41_exact_partial` `ITree.C41_invert` `ITree.C41_list_idx_wrong` `ITree.C41_list_pattern_wrong` `ITree.C41_list_value_wrong` `ITree.C44_C20_key_leads_back` `ITree.C44_deep_family_items_partial` `ITree.C44_deep_family_items_wrong` `ITree.C44_items_partial` `ITree.C44_iter_families_partial` `ITree.C44_iter_family_items` `ITree.C44_keys_distinct` `ITree.C44_keys_partial` `ITree.C44_tags` `ITree.C44_tags_complete` `ITree.C45_C19_deep_index_partial` `ITree.C45_contains_index` `ITree.C45_contains_item` `ITree.C45_contains_key` `ITree.C45_contains_tag_witness` `ITree.C45_count` `ITree.C45_deep_contains` `ITree.C45_deep_count` `ITree.C45_deep_is_in_partial` `ITree.C45_deep_is_tag_in_misses_children` `ITree.C45_deep_is_tag_in_partial` `ITree.C45_index` `ITree.C45_is_in_after_sort` `ITree.C45_is_in_partial` `ITree.C45_is_tag_in` `ITree.C46_items_partial` `ITree.C46_protected` `ITree.C46_structure_partial` `ITree.C46_structure_wrong` `ITree.C47_add` `ITree.C47_mul` `ITree.C47_product` `ITree.C47_rmul` `ITree.C48_C16_cleared_wrong` `ITree.C48_by_idx_list` `ITree.C48_by_idx_list_path_partial` `ITree.C48_by_idx_list_wrong` `ITree.C48_by_idx_slice` `ITree.C48_by_tag` `ITree.C48_key_slice_wrong` `ITree.C48_same_index` `ITree.C48_tag_path_wrong` `ITree.C49_C12_stray_after_sort` `ITree.C49_other_trees_untouched_partial` `ITree.C50_argument_lists` `ITree.C50_constructor` `ITree.C50_link` `ITree.C53_del_key_dict` `ITree.C53_del_key_list` `ITree.C53_no_slots` `ITree.C53_set_key_dict` `ITree.C53_set_key_dict_refused` `ITree.C53_set_key_list` `ITree.C53_set_key_list_else` `ITree.C54_C24_remove_twice` `ITree.C54_C24_reverse_stops` `ITree.C54_deep_remove_partial` `ITree.C54_deep_reverse` `ITree.C54_deep_reverse_twice` `ITree.C54_deep_sort_partial` `ITree.C55_C24_set_stops` `ITree.C55_live_filter` `ITree.C55_live_parent` `ITree.C55_live_set_value` `ITree.C55_set_value` `ITree.C55_unset_drops_all` `ITree.C55_unset_partial` `ITree.C56_copy` `ITree.C56_copy_shares_elements` `ITree.C56_copy_shares_instances` `ITree.C56_deepcopy` `ITree.C56_deepcopy_returns` `ITree.C56_keep` `ITree.C57_pickle` `ITree.C57_pickle_flags_wrong` `ITree.C57_pickle_same_partial` `ITree.C57_pickle_stored` `ITree.C57_repr_deep_wrong` `ITree.C57_repr_eval` `ITree.C57_repr_same_partial` `ITree.C58_C30_deep_compare` `ITree.C58_C32_equal_not_less` `ITree.C58_antisymm_wrong` `ITree.C58_order` `ITree.C58_tag_number_partial` `ITree.C58_tag_number_wrong` `ITree.C59_C32_equal` `ITree.C59_C32_equal_flags` `ITree.C60_C18_force_update` `ITree.C60_own_family_wrong` `ITree.C61_down_wrong` `ITree.C61_level_list_wrong` `ITree.C61_level_list_zero_wrong` `ITree.C61_levels_down_partial` `ITree.C61_levels_items_partial` `ITree.C61_levels_partial` `ITree.C61_multiple_wrong` `ITree.C61_none_wrong` `ITree.C61_stop_wrong` `ITree.C62_leaf_partial` `ITree.C69_after_reading` `ITree.C69_empty_family_wrong` `ITree.C69_longer_wrong` `ITree.C69_missing_wrong` `ITree.C69_operands_untouched_partial` `ITree.C69_order_raises_wrong` `ITree.C69_order_wrong` `ITree.C69_protected_wrong` `ITree.C69_shift_wrong` `ITree.C69_sub_partial` `ITree.C70_dot_partial` `ITree.C70_grown_partial` `ITree.C70_outdated_wrong` `ITree.C70_quotes_wrong` `ITree.C70_tree` `ITree.C71_accept_all` `ITree.C71_filtered_partial` `ITree.C71_none_wrong` `ITree.C71_stored_partial` `ITree.C72_convert_partial` `ITree.C72_link_flags_wrong` `ITree.C72_list_wrong` `ITree.C72_no_data_wrong` `ITree.C72_plain_dict_wrong` `ITree.C72_refused` `ITree.C72_separator_wrong` `ITree.C72_two_chars_wrong` `ITree.C73_far_cache_wrong` `ITree.C73_make_local_partial` `ITree.C73_negative_wrong` `ITree.C73_structure_wrong` `ITree.C73_undo` `ITree.C74_far_cache_wrong` `ITree.C74_first_load_partial` `ITree.C74_reload_partial` `ITree.C74_stray_wrong` `ITree.C75_exists` `ITree.C75_failed_dump` `ITree.C75_file_round_trip` `ITree.C75_missing` `ITree.C76_broken` `ITree.C76_delete_broken` `ITree.C76_delete_nested_wrong` `ITree.C76_delete_next_wrong` `ITree.C76_delete_only_partial` `ITree.C76_endless_wrong` `ITree.C76_file_link_partial` `ITree.C76_idx_path` `ITree.C76_load_all_partial` `ITree.C76_load_root_partial` `ITree.C76_no_links` `ITree.C76_only_below` `ITree.C76_only_link_roots` `ITree.C76_root_tag_wrong` `ITree.C76_tag_idx_path` `ITree.C76_tag_path_wrong` `ITree.C76_twice_wrong` `ITree.C77_accu` `ITree.C77_flags_repr` `ITree.C77_flags_repr_injective` `ITree.C77_link_loaded` `ITree.C77_link_root` `ITree.C77_option_str_partial` `ITree.C77_option_str_wrong` `ITree.C77_rindex` `ITree.C77_str_chain` `ITree.C77_str_ends` `ITree.C77_valid_option` `ITree.C80_C74_reload_partial` `ITree.C80_deep_wrong` `ITree.C80_falsy_wrong` `ITree.C80_history` `ITree.C80_invisible` `ITree.C80_none_wrong` `ITree.C81_flags` `ITree.C81_tag` `ITree.C81_value` `ITree.C81_wide_flags` `ITree.C81_wide_tag` `ITree.C81_wide_value` `ITree.C82_any_file_partial` `ITree.C82_any_text_partial` `ITree.C82_untouched_partial` `ITree.C83_call_partial` `ITree.C83_kept_partial` `ITree.C83_refused_partial` `ITree.C84_again_partial` `ITree.C84_any_order_partial` `ITree.C84_copies_wrong` `ITree.C84_load_partial` `ITree.C84_loaded_partial` `ITree.C84_only_partial` `ITree.C84_ready_partial` `Legacy.C63_check_wrong` `Legacy.C63_format_partial` `Legacy.C63_history` `Legacy.C64_clear` `Legacy.C65_update_atomic` `Legacy.C65_update_partial` `MSets.C37_interval` `MSets.C37_interval_int` `MSets.C37_roster` `MSets.C37_roster_vars` `MSets.C37_swapped` `MSets.C37_variable_limit` `MSets.C37_variable_limits` `MSets.C39_intersection` `MSets.C39_operators` `MSets.C39_union` `MSets.C40_cardinality` `MSets.C40_cardinality_float_limits` `MSets.C40_empty` `MSets.C40_empty_combine_complement` `MSets.C40_empty_complement` `MSets.C40_empty_complement_of_all` `MSets.C40_empty_float` `MSets.C40_intersection_cardinality` `MSets.C40_iter_halfopen_point` `MSets.C40_iter_partial` `MSets.C40_roster_cardinality` `MSets.C40_roster_empty_complement` `MSets.C40_roster_universal` `MSets.C40_union_cardinality` `MSets.C40_universal_wrong` `MSets.C51_combine_args_wrong` `MSets.C51_combine_equal_partial` `MSets.C51_equal_partial` `MSets.C51_full_args_wrong` `MSets.C51_init_args` `MSets.C51_roster_equal` `MSets.C52_combine_round_trip_partial` `MSets.C52_combine_wrong` `MSets.C52_nested_wrong` `MSets.C52_repr_round_trip_partial` `MSets.C52_roster_round_trip_partial` `MSets.C52_roster_signs_partial` `MSets.C52_roster_wrong` `MSets.C52_zero_wrong` `MSets.C68_domain_lower_wrong` `MSets.C68_domain_open_wrong` `MSets.C68_domain_wrong` `MSets.C68_equal_variable` `MSets.C68_open_wrong` `MSets.C68_second_lower_wrong` `MSets.C68_supported_partial` `MSets.C68_swapped_wrong` `MSets.C68_variable_wrong` `MSets.C78_needed_upper` `MSets.C79_eq_hash_partial` `MSets.C79_eq_hash_wrong` `MSets.C79_eq_refl_symm` `MSets.C79_order`
