# Axioms each property theorem depends on

Generated with `#print axioms` over every theorem named in `MANIFEST.json`.

## no axioms

* `C22_solo_and_mute_empty`
* `C23_partial_entry_violation`
* `C58_mute_drops_solo_violation`
* `C117_helper_other`
* `C119_save_violation`
* `C120_other_killed_violation`
* `C130_answer_violation`

## propext

* `C13_empty`
* `C14_no_attr`
* `C15_contained`
* `C46_missing_node`
* `C51_roundtrip`
* `C56_lock_removal_violation`
* `C56_top_layer_fails`
* `C56_no_override`
* `C64_lost_children_violation`
* `C94_each`
* `C94_other`
* `C94_has_new`
* `C94_lost_violation`
* `C94_set`
* `C103_others`
* `C117_missing`
* `C117_world`
* `C117_helper`
* `C117_helper_start`
* `C117_custom_closed`
* `C118_where`
* `C120_port`
* `C130_released`
* `C130_covered_partial`
* `C130_run_violation`
* `C131_path`
* `C131_path_layer`
* `C133_empty`
* `C134_missing`
* `C135_outside`
* `C139_baked_violation`
* `C139_solo_lost_violation`
* `C153_loop_violation`
* `C157_local`
* `C157_top`
* `C162_short`
* `C162_documented_violation`

## propext, Classical.choice, Quot.sound

* `C02_parse_total`
* `C02_standalone_sound`
* `C02_standalone_rewrap`
* `C03_attr_filters_nothing`
* `C05_atomic_exact`
* `C05_atomic_sound`
* `C05_atomic_incomplete`
* `C06_plain`
* `C06_unclosed`
* `C06_limit`
* `C07_terminates`
* `C07_finite`
* `C07_iff`
* `C07_loop`
* `C07_plain`
* `C08_boundary`
* `C10_ancestors_exact`
* `C10_ancestors_mem`
* `C10_ancestors_nodup`
* `C10_test_agrees_with_list`
* `C12_world_ancestor_violation`
* `C12_not_an_ancestor_violation`
* `C13_root_violation`
* `C15_union_nodup`
* `C15_disjoint`
* `C15_base_order`
* `C15_idempotent`
* `C15_overlay_order_lost`
* `C15_part`
* `C18_unique_node_name`
* `C18_wanted`
* `C18_empty_name_raises`
* `C19_unique_attr_name`
* `C19_default_name`
* `C19_meta_suffix_violation`
* `C20_legal`
* `C20_idempotent`
* `C20_total`
* `C21_unused_graph_name_partial`
* `C22_active`
* `C22_members`
* `C24_order_save_dict`
* `C24_order_nodes_dict`
* `C24_order_node_dict`
* `C25_round_trip`
* `C25_falsy_value_violation`
* `C25_resave_stable`
* `C25_same_node`
* `C25_world_loses_internals`
* `C25_unsaid`
* `C26_version_gate`
* `C26_no_version`
* `C26_no_dot`
* `C26_not_integers`
* `C26_negative_major_violation`
* `C26_integers`
* `C27_converters_in_order`
* `C27_convert_release`
* `C27_convert_pre_release`
* `C27_too_old`
* `C27_gate_terminates`
* `C28_arrange_keeps`
* `C28_ancestors_first_partial`
* `C28_world_violation`
* `C29_conversion_keeps_data`
* `C29_unknown_node_key_lost`
* `C30_strongest_opinion`
* `C30_user_attribute`
* `C31_union`
* `C32_child_order_partial`
* `C32_world_violation`
* `C33_dirties_reachable`
* `C33_not_reflexive`
* `C34_history`
* `C34_dirties_after_history`
* `C34_identity_violation`
* `C35_trace`
* `C36_from_root`
* `C36_from_inside_partial`
* `C36_unlisted_start`
* `C36_terminates`
* `C36_disabled_root_violation`
* `C37_terminates`
* `C39_run_time`
* `C40_run_partial`
* `C40_deleted_violation`
* `C41_exact_partial`
* `C41_declared_partial`
* `C41_second_name_violation`
* `C41_undeclared_violation`
* `C41_run_partial`
* `C43_pairs`
* `C43_bad_key`
* `C44_frames_partial`
* `C44_split_header_violation`
* `C44_closed_violation`
* `C45_header_partial`
* `C45_stream_injective`
* `C46_identity_violation`
* `C47_descendants`
* `C47_world`
* `C47_ordered`
* `C48_check`
* `C48_check_loaded`
* `C49_order`
* `C49_terminates_iff`
* `C49_cycle`
* `C49_parents`
* `C49_cwd_violation`
* `C50_depth_order`
* `C50_distinct`
* `C50_fallback`
* `C50_root_fallback`
* `C50_env_roots`
* `C51_list`
* `C51_files`
* `C51_log_file`
* `C52_exact`
* `C52_refs_partial`
* `C52_bare_violation`
* `C52_overrides_partial`
* `C52_clash_violation`
* `C53_unix_partial`
* `C53_windows_partial`
* `C53_between_violation`
* `C53_percent_violation`
* `C53_prefix_violation`
* `C54_never_violation`
* `C55_comp_remove`
* `C55_comp_history`
* `C55_history_partial`
* `C55_comp_add_order`
* `C55_comp_remove_order`
* `C57_nodes_round_trip`
* `C57_no_empty_entries`
* `C57_round_trip_partial`
* `C57_resave_stable`
* `C57_mute_lock_violation`
* `C59_load_child_orders`
* `C59_children_listed`
* `C60_unpack`
* `C60_flat_data`
* `C61_convert114_keeps`
* `C62_references`
* `C63_drop`
* `C63_orphans`
* `C64_history_partial`
* `C64_table_alias_violation`
* `C65_root_parent`
* `C66_substitution_partial`
* `C66_pathless`
* `C66_nested_violation`
* `C66_sequential_violation`
* `C66_protected_violation`
* `C67_parent`
* `C67_parent_one`
* `C67_orphan_violation`
* `C67_collapse_violation`
* `C67_order_orphan`
* `C67_order_orphan_violation`
* `C68_rename`
* `C68_rename_subtree_partial`
* `C68_gap_violation`
* `C68_own_name_violation`
* `C68_order`
* `C69_delete_one`
* `C69_delete_subtree_partial`
* `C69_gap_violation`
* `C69_order_subtree`
* `C69_order_one`
* `C70_parents`
* `C71_orders_kept`
* `C72_local_first`
* `C73_precedence`
* `C74_cycle_fails`
* `C75_composed_partial`
* `C75_source_violation`
* `C76_layers`
* `C77_plain_sources_partial`
* `C77_conflict_violation`
* `C78_deep_sort_partial`
* `C78_absolute`
* `C78_deep_violation`
* `C79_sound`
* `C79_ends`
* `C80_exact_partial`
* `C80_override_violation`
* `C80_plain`
* `C81_endless`
* `C81_endless_violation`
* `C82_implied_partial`
* `C82_chain_violation`
* `C83_empty_kept`
* `C83_overwritten_violation`
* `C84_child_orders`
* `C84_instance_order`
* `C84_source_violation`
* `C85_add`
* `C85_muted_violation`
* `C86_delete`
* `C86_absent`
* `C86_class_violation`
* `C86_add_delete`
* `C87_rename`
* `C87_back`
* `C87_same_name_violation`
* `C87_muted_violation`
* `C88_set`
* `C88_not_created`
* `C88_create_partial`
* `C88_type_violation`
* `C88_order_violation`
* `C88_illegal_name_violation`
* `C88_builtin_violation`
* `C88_muted_violation`
* `C89_copy`
* `C89_order`
* `C89_false_violation`
* `C89_illegal_violation`
* `C90_remove`
* `C90_ends`
* `C90_no_exception`
* `C90_all_partial`
* `C90_every_second`
* `C90_second_violation`
* `C90_key_error_violation`
* `C91_new`
* `C91_undo`
* `C91_double_violation`
* `C91_real_path_violation`
* `C93_names`
* `C93_reset`
* `C93_composition`
* `C93_composed_partial`
* `C93_removed_violation`
* `C93_stronger_violation`
* `C93_fold_violation`
* `C94_ordered`
* `C94_in_place`
* `C95_reverted`
* `C95_kept_violation`
* `C96_insert_partial`
* `C96_proxy`
* `C96_lost_violation`
* `C97_all`
* `C97_instances`
* `C97_others`
* `C99_values`
* `C99_source_violation`
* `C99_order_set`
* `C99_order_names`
* `C99_order_violation`
* `C100_error_line`
* `C100_custom_violation`
* `C101_node`
* `C101_others`
* `C101_dependents_partial`
* `C101_stop_violation`
* `C101_stronger_violation`
* `C102_plain`
* `C102_instance_partial`
* `C102_hidden_violation`
* `C102_dependents_partial`
* `C102_stop_violation`
* `C103_node_partial`
* `C103_stronger_violation`
* `C103_source_violation`
* `C103_cleared_violation`
* `C103_dependents_violation`
* `C104_attr_names`
* `C104_cover`
* `C104_inherited`
* `C104_nodup`
* `C104_instanced_partial`
* `C104_local_violation`
* `C104_implied_violation`
* `C104_calls_violation`
* `C105_layers`
* `C105_empty_violation`
* `C106_history`
* `C106_read`
* `C106_local_partial`
* `C106_empty_violation`
* `C107_copies_partial`
* `C107_no_instances_partial`
* `C107_node_only`
* `C107_world`
* `C107_other_layer_violation`
* `C107_instance_violation`
* `C107_gap_violation`
* `C107_capture_violation`
* `C107_name_violation`
* `C107_parents_made`
* `C108_hierarchy`
* `C108_again`
* `C108_parent_violation`
* `C109_flat_tokens`
* `C109_kind_violation`
* `C109_sources_partial`
* `C109_complete_partial`
* `C109_file_violation`
* `C109_dots_violation`
* `C109_nested_violation`
* `C109_self_violation`
* `C109_attribute`
* `C110_recalled_partial`
* `C110_agrees_partial`
* `C110_file`
* `C110_no_file`
* `C110_place_violation`
* `C110_around_violation`
* `C110_nested_violation`
* `C110_special_violation`
* `C111_history_partial`
* `C111_recomposed_partial`
* `C111_others`
* `C111_gap_violation`
* `C111_settings_partial`
* `C111_settings_violation`
* `C111_made_partial`
* `C111_opinions_partial`
* `C111_made_opinions_partial`
* `C111_listed`
* `C112_history_partial`
* `C112_recomposed_partial`
* `C112_orphan_violation`
* `C112_opinions_partial`
* `C112_functions`
* `C113_cache_partial`
* `C113_world_violation`
* `C113_inherited_violation`
* `C114_lower_partial`
* `C114_none`
* `C114_as_composed_partial`
* `C114_strongest`
* `C114_code_violation`
* `C114_instance_violation`
* `C115_overruled_violation`
* `C115_clear_partial`
* `C115_weaker_violation`
* `C115_relative_violation`
* `C115_silent_violation`
* `C115_twice_violation`
* `C116_flow_partial`
* `C116_ran`
* `C116_untouched`
* `C116_composed`
* `C116_commute`
* `C116_text_violation`
* `C116_new_violation`
* `C116_equal_violation`
* `C116_deleted_violation`
* `C117_root`
* `C117_inside_partial`
* `C117_first`
* `C117_index_violation`
* `C118_refused`
* `C118_others`
* `C118_round_trip`
* `C118_not_loaded`
* `C118_binary_violation`
* `C118_lost_violation`
* `C118_tuple_violation`
* `C118_layer_round_trip_partial`
* `C118_not_saved`
* `C118_save_as`
* `C118_stale_violation`
* `C118_text_round_trip_partial`
* `C119_registry_partial`
* `C119_unload`
* `C119_stage`
* `C119_load_error`
* `C119_load`
* `C119_names_violation`
* `C119_filepath_violation`
* `C119_reload_violation`
* `C119_untitled_violation`
* `C119_clock_violation`
* `C120_started`
* `C120_borrowed`
* `C120_unneeded`
* `C120_embedded`
* `C120_foreign`
* `C120_balanced_partial`
* `C120_late_violation`
* `C120_dead_violation`
* `C120_lost_violation`
* `C120_stopped_violation`
* `C120_build_violation`
* `C120_verbose_violation`
* `C121_call`
* `C121_call_args_partial`
* `C121_refused`
* `C121_start_violation`
* `C121_empty`
* `C121_create`
* `C121_create_refused`
* `C121_relpath`
* `C121_graph_violation`
* `C122_address`
* `C122_default`
* `C122_host_violation`
* `C123_session_partial`
* `C123_shared_violation`
* `C123_stacked_violation`
* `C123_first_partial`
* `C123_env`
* `C123_env_violation`
* `C123_sockets`
* `C124_stands_partial`
* `C124_change_partial`
* `C124_fails_violation`
* `C124_lost_violation`
* `C124_dependants_violation`
* `C124_world_violation`
* `C125_located_partial`
* `C125_syntax`
* `C125_own_partial`
* `C125_path_violation`
* `C125_custom_violation`
* `C125_nested_violation`
* `C126_frames`
* `C126_brackets`
* `C126_abort_partial`
* `C126_times`
* `C126_reentry_violation`
* `C126_alone`
* `C126_caller_partial`
* `C126_self_violation`
* `C126_running_partial`
* `C126_running_violation`
* `C126_interrupt_violation`
* `C126_globals_violation`
* `C127_opinions_partial`
* `C127_composed_partial`
* `C127_plain`
* `C127_success_violation`
* `C128_reopens`
* `C128_attributes_partial`
* `C128_composed_partial`
* `C128_plain`
* `C128_success_violation`
* `C129_reported_partial`
* `C129_silent_partial`
* `C129_self_violation`
* `C129_relative_violation`
* `C131_tokens`
* `C131_list`
* `C132_rename_back_partial`
* `C132_rename_order`
* `C132_parent_back`
* `C132_parent_order_violation`
* `C132_add_delete`
* `C132_delete_add`
* `C133_single`
* `C134_ancestors`
* `C134_paths`
* `C134_any`
* `C134_top_violation`
* `C134_names_violation`
* `C135_first_violation`
* `C135_twice_violation`
* `C136_steps`
* `C136_keeps_partial`
* `C136_again`
* `C136_labels`
* `C136_before_110`
* `C136_beside`
* `C136_replaced`
* `C136_no_dot_violation`
* `C136_newer_violation`
* `C136_no_version_violation`
* `C136_old`
* `C136_old_again`
* `C136_115`
* `C137_order_partial`
* `C137_execute_partial`
* `C137_start_partial`
* `C137_two_next_violation`
* `C137_unlisted_violation`
* `C137_two_starts_violation`
* `C138_tidy`
* `C138_order_partial`
* `C138_execute_partial`
* `C138_plain`
* `C138_two_next_violation`
* `C139_loaded`
* `C139_kept`
* `C139_below`
* `C139_other_paths`
* `C139_other_state_partial`
* `C139_beside_partial`
* `C139_mute_active_partial`
* `C139_solo_active_partial`
* `C139_baked`
* `C139_reopened_partial`
* `C139_own_state_lost_violation`
* `C139_beside_violation`
* `C140_computes_partial`
* `C140_plain`
* `C140_falsy_violation`
* `C141_run`
* `C141_names_partial`
* `C141_kept`
* `C141_tables_partial`
* `C141_new_partial`
* `C141_exit_violation`
* `C141_world_param_violation`
* `C142_reads_partial`
* `C142_passes_partial`
* `C142_none_violation`
* `C143_composed`
* `C143_refines`
* `C143_alike_partial`
* `C143_shadow_violation`
* `C144_taken`
* `C144_mute_partial`
* `C144_muted_violation`
* `C144_refused`
* `C144_world`
* `C144_world_taken`
* `C144_cwd_violation`
* `C145_order`
* `C145_reopened_partial`
* `C146_made`
* `C146_refreshed`
* `C146_source`
* `C146_followed`
* `C146_data`
* `C146_meta_partial`
* `C146_saved_violation`
* `C146_muted_violation`
* `C146_twice_violation`
* `C146_comment_violation`
* `C146_name_violation`
* `C147_recomposed_partial`
* `C147_followed_partial`
* `C147_signed`
* `C147_comment_violation`
* `C147_shown`
* `C148_children`
* `C148_descendants_partial`
* `C148_executes_partial`
* `C148_order_violation`
* `C149_order_partial`
* `C149_execute_partial`
* `C150_computes_partial`
* `C151_unique`
* `C151_reads_partial`
* `C151_passes_partial`
* `C152_arcs_partial`
* `C152_spec`
* `C152_instance_partial`
* `C152_layer`
* `C152_implied_violation`
* `C152_refused_violation`
* `C153_targets_partial`
* `C153_composed_partial`
* `C153_refused_violation`
* `C154_tree_partial`
* `C154_renamed`
* `C154_unnamed`
* `C154_twins_violation`
* `C154_replaced_violation`
* `C155_unpacked`
* `C155_whole`
* `C155_no_data_violation`
* `C155_unlisted_violation`
* `C155_refused`
* `C156_exec`
* `C156_convert`
* `C156_one`
* `C156_asked_partial`
* `C156_old`
* `C156_gui_violation`
* `C156_legacy_verb_violation`
* `C156_replace_violation`
* `C156_files`
* `C156_others`
* `C156_empty`
* `C156_unknown_words`
* `C156_verbose`
* `C156_quiet`
* `C156_verbose_violation`
* `C157_find`
* `C157_find_set`
* `C157_kept_violation`
* `C157_locked_violation`
* `C158_read_back`
* `C158_same_text`
* `C158_ascii`
* `C158_disk`
* `C158_cut`
* `C158_unfinished`
* `C158_one_place`
* `C158_saved`
* `C158_stopped`
* `C158_file_read_back`
* `C158_layer_saved`
* `C159_reformatted`
* `C159_exact`
* `C159_one_meaning`
* `C159_written`
* `C159_files`
* `C159_layout`
* `C160_last`
* `C160_lost_violation`
* `C161_served_partial`
* `C161_unshared_violation`
* `C161_empty_violation`
* `C162_long`
* `C162_taken`
* `C164_order`
* `C164_identity_violation`

## propext, Quot.sound

* `C01_token_roundtrip`
* `C02_standalone_exact`
* `C02_parse_unique`
* `C03_filter_exact`
* `C04_partition_some`
* `C04_partition_none`
* `C08_wellformed`
* `C08_namespace_roundtrip`
* `C08_path_roundtrip`
* `C08_attr_path_namespace`
* `C09_parent_name_join`
* `C09_join_paths`
* `C09_bare_name`
* `C10_is_ancestor`
* `C10_strict_order`
* `C10_world_reflexive`
* `C11_depth`
* `C11_trim`
* `C11_trim_depth`
* `C11_root`
* `C12_replace_all_by_world`
* `C12_replace_ancestor_partial`
* `C13_expand_exact`
* `C13_expand_partial`
* `C13_absolute_unchanged`
* `C13_idempotent`
* `C13_no_directives`
* `C14_attr_roundtrip`
* `C14_split_join`
* `C16_stable_sort`
* `C17_composite`
* `C17_first_order`
* `C20_legal_unchanged`
* `C21_empty_name_diverges`
* `C23_topmost_entry`
* `C23_topmost_state_partial`
* `C27_newer_diverges_violation`
* `C36_missing_root`
* `C37_chain`
* `C37_cycle_violation`
* `C38_loop`
* `C38_reentry_violation`
* `C39_pairs`
* `C39_succeeds`
* `C39_unmatched`
* `C39_nested_violation`
* `C39_was_during`
* `C42_params_partial`
* `C42_no_attr_violation`
* `C43_odd`
* `C45_long_violation`
* `C46_children`
* `C46_scan`
* `C46_implied_partial`
* `C46_world_violation`
* `C46_ordered`
* `C46_ordered_nodes`
* `C46_table_violation`
* `C47_node_type_violation`
* `C52_files`
* `C54_stronger`
* `C55_add`
* `C55_overwrite_violation`
* `C55_comp_add`
* `C55_construct`
* `C56_alias_over`
* `C56_color_over`
* `C56_lock_over_partial`
* `C58_set_mute_over`
* `C58_set_solo_over`
* `C61_deep_order_same`
* `C67_order`
* `C67_world_order_violation`
* `C67_same_place_violation`
* `C79_scan`
* `C91_parent`
* `C91_top`
* `C92_add_reference`
* `C92_new`
* `C92_assign`
* `C94_double_violation`
* `C98_reference`
* `C98_parent`
* `C98_instance_partial`
* `C98_implied_violation`
* `C100_lines`
* `C104_dir`
* `C105_uncomped`
* `C109_partition`
* `C115_layers`
* `C115_set_partial`
* `C115_stronger_partial`
* `C117_cycle_violation`
* `C117_custom`
* `C118_which_file`
* `C121_find`
* `C121_register`
* `C121_shadowed_violation`
* `C121_relative_violation`
* `C130_handlers`
* `C130_log_violation`
* `C131_loaded`
* `C131_raises`
* `C131_again`
* `C131_path_violation`
* `C133_short`
* `C133_long`
* `C133_prefix_violation`
* `C133_even_same`
* `C133_even`
* `C133_even_violation`
* `C133_joins`
* `C133_single_violation`
* `C135_next`
* `C135_prev_partial`
* `C157_alias_seen`
* `C157_color_seen`
* `C157_lock_seen`
* `C157_alias_set`
* `C157_color_set`
* `C157_lock_set`
* `C157_clear_partial`
* `C160_order`
* `C160_ignored`
* `C161_refused`
* `C162_one_meaning`
* `C163_place`
* `C163_behind_violation`
* `C163_exact`
* `C163_loaded`
* `C163_shared_violation`
* `C163_slice_violation`
* `C164_node`
* `C164_layer_partial`
* `C164_values`
