{"claims": [
{"property": "C01", "status": "proved", "theorems": ["Nxt.Props.C01_token_roundtrip"], "note": ""},
{"property": "C02", "status": "proved", "theorems": ["Nxt.Props.C02_parse_total", "Nxt.Props.C02_standalone_exact", "Nxt.Props.C02_parse_unique", "Nxt.Props.C02_standalone_sound", "Nxt.Props.C02_standalone_rewrap"], "note": ""},
{"property": "C03", "status": "proved", "theorems": ["Nxt.Props.C03_filter_exact", "Nxt.Props.C03_attr_filters_nothing"], "note": ""},
{"property": "C04", "status": "proved", "theorems": ["Nxt.Props.C04_partition_some", "Nxt.Props.C04_partition_none"], "note": ""},
{"property": "C05", "status": "partial", "theorems": ["Nxt.Props.C05_atomic_exact", "Nxt.Props.C05_atomic_sound", "Nxt.Props.C05_atomic_incomplete"], "note": "get_atomic_tokens misses tokens left of a nested one; exact result, soundness and a witness are proved"},
{"property": "C06", "status": "proved", "theorems": ["Nxt.Props.C06_plain", "Nxt.Props.C06_unclosed", "Nxt.Props.C06_limit"], "note": "Texts without closed tokens; independence of the recursion limit. The model reads the graph only, so nothing is modified."},
{"property": "C07", "status": "proved", "theorems": ["Nxt.Props.C07_terminates", "Nxt.Props.C07_finite", "Nxt.Props.C07_iff", "Nxt.Props.C07_loop", "Nxt.Props.C07_plain"], "note": "Plugin tokens are taken as functions that do not call back."},
{"property": "C08", "status": "proved", "theorems": ["Nxt.Props.C08_wellformed", "Nxt.Props.C08_namespace_roundtrip", "Nxt.Props.C08_path_roundtrip", "Nxt.Props.C08_attr_path_namespace", "Nxt.Props.C08_boundary"], "note": ""},
{"property": "C09", "status": "proved", "theorems": ["Nxt.Props.C09_parent_name_join", "Nxt.Props.C09_join_paths", "Nxt.Props.C09_bare_name"], "note": ""},
{"property": "C10", "status": "proved", "theorems": ["Nxt.Props.C10_ancestors_exact", "Nxt.Props.C10_ancestors_mem", "Nxt.Props.C10_ancestors_nodup", "Nxt.Props.C10_is_ancestor", "Nxt.Props.C10_test_agrees_with_list", "Nxt.Props.C10_strict_order", "Nxt.Props.C10_world_reflexive"], "note": "world is its own ancestor in the test (C10_world_reflexive)"},
{"property": "C11", "status": "proved", "theorems": ["Nxt.Props.C11_depth", "Nxt.Props.C11_trim", "Nxt.Props.C11_trim_depth", "Nxt.Props.C11_root"], "note": ""},
{"property": "C12", "status": "partial", "theorems": ["Nxt.Props.C12_replace_all_by_world", "Nxt.Props.C12_replace_ancestor_partial", "Nxt.Props.C12_world_ancestor_violation", "Nxt.Props.C12_not_an_ancestor_violation"], "note": "false for the world as old ancestor (C12_world_ancestor_violation); proved for every other ancestor"},
{"property": "C13", "status": "partial", "theorems": ["Nxt.Props.C13_expand_exact", "Nxt.Props.C13_expand_partial", "Nxt.Props.C13_absolute_unchanged", "Nxt.Props.C13_idempotent", "Nxt.Props.C13_no_directives", "Nxt.Props.C13_root_violation", "Nxt.Props.C13_empty"], "note": "false when the walk leaves the root or starts at the world (C13_root_violation); exact result proved for all inputs"},
{"property": "C14", "status": "proved", "theorems": ["Nxt.Props.C14_attr_roundtrip", "Nxt.Props.C14_split_join", "Nxt.Props.C14_no_attr"], "note": ""},
{"property": "C15", "status": "proved", "theorems": ["Nxt.Props.C15_union_nodup", "Nxt.Props.C15_disjoint", "Nxt.Props.C15_base_order", "Nxt.Props.C15_contained", "Nxt.Props.C15_idempotent", "Nxt.Props.C15_overlay_order_lost", "Nxt.Props.C15_part"], "note": "base order kept always; overlay order not kept (C15_overlay_order_lost)"},
{"property": "C16", "status": "proved", "theorems": ["Nxt.Props.C16_stable_sort"], "note": ""},
{"property": "C17", "status": "proved", "theorems": ["Nxt.Props.C17_composite", "Nxt.Props.C17_first_order"], "note": ""},
{"property": "C18", "status": "proved", "theorems": ["Nxt.Props.C18_unique_node_name", "Nxt.Props.C18_wanted", "Nxt.Props.C18_empty_name_raises"], "note": ""},
{"property": "C19", "status": "partial", "theorems": ["Nxt.Props.C19_unique_attr_name", "Nxt.Props.C19_default_name", "Nxt.Props.C19_meta_suffix_violation"], "note": "false for names ending in __nxt (C19_meta_suffix_violation); proved for all others"},
{"property": "C20", "status": "proved", "theorems": ["Nxt.Props.C20_legal", "Nxt.Props.C20_legal_unchanged", "Nxt.Props.C20_idempotent", "Nxt.Props.C20_total"], "note": ""},
{"property": "C21", "status": "partial", "theorems": ["Nxt.Props.C21_unused_graph_name_partial", "Nxt.Props.C21_empty_name_diverges"], "note": "false for a free empty name (C21_empty_name_diverges); proved otherwise"},
{"property": "C22", "status": "proved", "theorems": ["Nxt.Props.C22_active", "Nxt.Props.C22_members", "Nxt.Props.C22_solo_and_mute_empty"], "note": ""},
{"property": "C23", "status": "partial", "theorems": ["Nxt.Props.C23_topmost_entry", "Nxt.Props.C23_topmost_state_partial", "Nxt.Props.C23_partial_entry_violation"], "note": "exact result proved; per-state claim fails when the top-most entry gives only the other state (C23_partial_entry_violation)"},
{"property": "C24", "status": "proved", "theorems": ["Nxt.Props.C24_order_save_dict", "Nxt.Props.C24_order_nodes_dict", "Nxt.Props.C24_order_node_dict"], "note": ""},
{"property": "C25", "status": "proved", "theorems": ["Nxt.Props.C25_round_trip", "Nxt.Props.C25_falsy_value_violation", "Nxt.Props.C25_resave_stable", "Nxt.Props.C25_same_node", "Nxt.Props.C25_world_loses_internals", "Nxt.Props.C25_unsaid"], "note": "full round trip for truthy serialisable values; falsy or unserialisable values are dropped (C25_falsy_value_violation) and the world node keeps only comment and code (C25_world_loses_internals)"},
{"property": "C26", "status": "proved", "theorems": ["Nxt.Props.C26_version_gate", "Nxt.Props.C26_no_version", "Nxt.Props.C26_no_dot", "Nxt.Props.C26_not_integers", "Nxt.Props.C26_negative_major_violation", "Nxt.Props.C26_integers"], "note": "negative major versions are the one exception, kept as C26_negative_major_violation"},
{"property": "C27", "status": "proved", "theorems": ["Nxt.Props.C27_converters_in_order", "Nxt.Props.C27_newer_diverges_violation", "Nxt.Props.C27_convert_release", "Nxt.Props.C27_convert_pre_release", "Nxt.Props.C27_too_old", "Nxt.Props.C27_gate_terminates"], "note": "includes the divergence for newer files"},
{"property": "C28", "status": "partial", "theorems": ["Nxt.Props.C28_arrange_keeps", "Nxt.Props.C28_ancestors_first_partial", "Nxt.Props.C28_world_violation"], "note": "false when the world node is in the file (C28_world_violation); proved when no path ends in a slash"},
{"property": "C29", "status": "proved", "theorems": ["Nxt.Props.C29_conversion_keeps_data", "Nxt.Props.C29_unknown_node_key_lost"], "note": "unknown node entries are outside the file format and are lost (C29_unknown_node_key_lost)"},
{"property": "C30", "status": "proved", "theorems": ["Nxt.Props.C30_strongest_opinion", "Nxt.Props.C30_user_attribute"], "note": ""},
{"property": "C31", "status": "proved", "theorems": ["Nxt.Props.C31_union"], "note": ""},
{"property": "C32", "status": "partial", "theorems": ["Nxt.Props.C32_child_order_partial", "Nxt.Props.C32_world_violation"], "note": "proved for every node but the world, whose child order is shown to be wrong"},
{"property": "C33", "status": "proved", "theorems": ["Nxt.Props.C33_dirties_reachable", "Nxt.Props.C33_not_reflexive"], "note": ""},
{"property": "C34", "status": "proved", "theorems": ["Nxt.Props.C34_history", "Nxt.Props.C34_dirties_after_history", "Nxt.Props.C34_identity_violation"], "note": ""},
{"property": "C35", "status": "proved", "theorems": ["Nxt.Props.C35_trace"], "note": ""},
{"property": "C36", "status": "partial", "theorems": ["Nxt.Props.C36_from_root", "Nxt.Props.C36_from_inside_partial", "Nxt.Props.C36_unlisted_start", "Nxt.Props.C36_terminates", "Nxt.Props.C36_disabled_root_violation", "Nxt.Props.C36_missing_root"], "note": "Full order proved for a start at a root and below one; a disabled root above the start node is not honoured (violation)."},
{"property": "C37", "status": "proved", "theorems": ["Nxt.Props.C37_chain", "Nxt.Props.C37_terminates", "Nxt.Props.C37_cycle_violation"], "note": ""},
{"property": "C38", "status": "partial", "theorems": ["Nxt.Props.C38_loop", "Nxt.Props.C38_reentry_violation"], "note": "For code which does not execute its own node again (violation) and does not change which nodes are enabled."},
{"property": "C39", "status": "partial", "theorems": ["Nxt.Props.C39_pairs", "Nxt.Props.C39_succeeds", "Nxt.Props.C39_unmatched", "Nxt.Props.C39_run_time", "Nxt.Props.C39_nested_violation", "Nxt.Props.C39_was_during"], "note": "Pairing, errors, run time of ended runs and membership of a time in full; run time during nested runs of one node violated."},
{"property": "C40", "status": "partial", "theorems": ["Nxt.Props.C40_run_partial", "Nxt.Props.C40_deleted_violation"], "note": "Full except when the code deletes an attribute of self (violation)."},
{"property": "C41", "status": "partial", "theorems": ["Nxt.Props.C41_exact_partial", "Nxt.Props.C41_declared_partial", "Nxt.Props.C41_second_name_violation", "Nxt.Props.C41_undeclared_violation", "Nxt.Props.C41_run_partial"], "note": "Exact behaviour of the text search proved; a global statement with several names, and text which is no statement, break the property (violations)."},
{"property": "C42", "status": "partial", "theorems": ["Nxt.Props.C42_params_partial", "Nxt.Props.C42_no_attr_violation"], "note": "Keys naming a node without attribute make the call fail (violation)."},
{"property": "C43", "status": "proved", "theorems": ["Nxt.Props.C43_pairs", "Nxt.Props.C43_bad_key", "Nxt.Props.C43_odd"], "note": ""},
{"property": "C44", "status": "partial", "theorems": ["Nxt.Props.C44_frames_partial", "Nxt.Props.C44_split_header_violation", "Nxt.Props.C44_closed_violation"], "note": "bodies may be segmented arbitrarily; a split header loses records (C44_split_header_violation), a close inside a body never ends (C44_closed_violation)"},
{"property": "C45", "status": "partial", "theorems": ["Nxt.Props.C45_header_partial", "Nxt.Props.C45_long_violation", "Nxt.Props.C45_stream_injective"], "note": "Python 2 only: on Python 3 bytes(text) raises; boundary shown by C45_long_violation"},
{"property": "C46", "status": "partial", "theorems": ["Nxt.Props.C46_children", "Nxt.Props.C46_scan", "Nxt.Props.C46_implied_partial", "Nxt.Props.C46_world_violation", "Nxt.Props.C46_ordered", "Nxt.Props.C46_missing_node", "Nxt.Props.C46_ordered_nodes", "Nxt.Props.C46_table_violation", "Nxt.Props.C46_identity_violation"], "note": "World left out for implied children; node tables are listed twice; parent paths compared by identity: each shown as a violation."},
{"property": "C47", "status": "partial", "theorems": ["Nxt.Props.C47_node_type_violation", "Nxt.Props.C47_descendants", "Nxt.Props.C47_world", "Nxt.Props.C47_ordered"], "note": "Paths and ordered listings in full. Return type Node gives only direct children (violation)."},
{"property": "C48", "status": "proved", "theorems": ["Nxt.Props.C48_check", "Nxt.Props.C48_check_loaded"], "note": ""},
{"property": "C49", "status": "partial", "theorems": ["Nxt.Props.C49_order", "Nxt.Props.C49_terminates_iff", "Nxt.Props.C49_cycle", "Nxt.Props.C49_parents", "Nxt.Props.C49_cwd_violation"], "note": "order, termination and divergence proved; the working directory is not restored after an exception (C49_cwd_violation)"},
{"property": "C50", "status": "proved", "theorems": ["Nxt.Props.C50_depth_order", "Nxt.Props.C50_distinct", "Nxt.Props.C50_fallback", "Nxt.Props.C50_root_fallback", "Nxt.Props.C50_env_roots"], "note": ""},
{"property": "C51", "status": "proved", "theorems": ["Nxt.Props.C51_list", "Nxt.Props.C51_files", "Nxt.Props.C51_roundtrip", "Nxt.Props.C51_log_file"], "note": ""},
{"property": "C52", "status": "partial", "theorems": ["Nxt.Props.C52_exact", "Nxt.Props.C52_refs_partial", "Nxt.Props.C52_bare_violation", "Nxt.Props.C52_overrides_partial", "Nxt.Props.C52_clash_violation", "Nxt.Props.C52_files"], "note": "bare references before qualified ones are lost (C52_bare_violation); exact behaviour in C52_exact"},
{"property": "C53", "status": "partial", "theorems": ["Nxt.Props.C53_unix_partial", "Nxt.Props.C53_windows_partial", "Nxt.Props.C53_between_violation", "Nxt.Props.C53_percent_violation", "Nxt.Props.C53_prefix_violation"], "note": "sequential replacement breaks some texts, see the violations"},
{"property": "C54", "status": "proved", "theorems": ["Nxt.Props.C54_stronger", "Nxt.Props.C54_never_violation"], "note": ""},
{"property": "C55", "status": "partial", "theorems": ["Nxt.Props.C55_add", "Nxt.Props.C55_overwrite_violation", "Nxt.Props.C55_comp_add", "Nxt.Props.C55_comp_remove", "Nxt.Props.C55_comp_history", "Nxt.Props.C55_history_partial", "Nxt.Props.C55_construct", "Nxt.Props.C55_comp_add_order", "Nxt.Props.C55_comp_remove_order"], "note": "histories of edits at free paths; adding at a used path breaks the tables (violation)"},
{"property": "C56", "status": "partial", "theorems": ["Nxt.Props.C56_alias_over", "Nxt.Props.C56_color_over", "Nxt.Props.C56_lock_over_partial", "Nxt.Props.C56_lock_removal_violation", "Nxt.Props.C56_top_layer_fails", "Nxt.Props.C56_no_override"], "note": "alias and colour in full; lock removal is broken (C56_lock_removal_violation)"},
{"property": "C57", "status": "partial", "theorems": ["Nxt.Props.C57_nodes_round_trip", "Nxt.Props.C57_no_empty_entries", "Nxt.Props.C57_round_trip_partial", "Nxt.Props.C57_resave_stable", "Nxt.Props.C57_mute_lock_violation"], "note": "everything but mute, solo and lock comes back; those do not (C57_mute_lock_violation)"},
{"property": "C58", "status": "partial", "theorems": ["Nxt.Props.C58_set_mute_over", "Nxt.Props.C58_set_solo_over", "Nxt.Props.C58_mute_drops_solo_violation"], "note": "other state kept only when the top layer already has an entry (C58_mute_drops_solo_violation)"},
{"property": "C59", "status": "proved", "theorems": ["Nxt.Props.C59_load_child_orders", "Nxt.Props.C59_children_listed"], "note": ""},
{"property": "C60", "status": "proved", "theorems": ["Nxt.Props.C60_unpack", "Nxt.Props.C60_flat_data"], "note": ""},
{"property": "C61", "status": "proved", "theorems": ["Nxt.Props.C61_deep_order_same", "Nxt.Props.C61_convert114_keeps"], "note": ""},
{"property": "C62", "status": "proved", "theorems": ["Nxt.Props.C62_references"], "note": ""},
{"property": "C63", "status": "proved", "theorems": ["Nxt.Props.C63_drop", "Nxt.Props.C63_orphans"], "note": "descendants of a dropped node stay (C63_orphans)"},
{"property": "C64", "status": "partial", "theorems": ["Nxt.Props.C64_history_partial", "Nxt.Props.C64_lost_children_violation", "Nxt.Props.C64_table_alias_violation"], "note": "Additions only below a cached parent or as first child; otherwise violated."},
{"property": "C65", "status": "proved", "theorems": ["Nxt.Props.C65_root_parent"], "note": ""},
{"property": "C66", "status": "partial", "theorems": ["Nxt.Props.C66_substitution_partial", "Nxt.Props.C66_pathless", "Nxt.Props.C66_nested_violation", "Nxt.Props.C66_sequential_violation", "Nxt.Props.C66_protected_violation"], "note": "Assumes no token inside another one, inert replacements, no '$${'; otherwise false (violation theorems)."},
{"property": "C67", "status": "proved", "theorems": ["Nxt.Props.C67_parent", "Nxt.Props.C67_parent_one", "Nxt.Props.C67_order", "Nxt.Props.C67_world_order_violation", "Nxt.Props.C67_orphan_violation", "Nxt.Props.C67_collapse_violation", "Nxt.Props.C67_order_orphan", "Nxt.Props.C67_order_orphan_violation", "Nxt.Props.C67_same_place_violation"], "note": ""},
{"property": "C68", "status": "partial", "theorems": ["Nxt.Props.C68_rename", "Nxt.Props.C68_rename_subtree_partial", "Nxt.Props.C68_gap_violation", "Nxt.Props.C68_own_name_violation", "Nxt.Props.C68_order"], "note": "whole subtree only without gaps in the layer (violation)"},
{"property": "C69", "status": "partial", "theorems": ["Nxt.Props.C69_delete_one", "Nxt.Props.C69_delete_subtree_partial", "Nxt.Props.C69_gap_violation", "Nxt.Props.C69_order_subtree", "Nxt.Props.C69_order_one"], "note": "whole subtree only without gaps in the layer (violation)"},
{"property": "C70", "status": "proved", "theorems": ["Nxt.Props.C70_parents"], "note": ""},
{"property": "C71", "status": "proved", "theorems": ["Nxt.Props.C71_orders_kept"], "note": ""},
{"property": "C72", "status": "proved", "theorems": ["Nxt.Props.C72_local_first"], "note": ""},
{"property": "C73", "status": "proved", "theorems": ["Nxt.Props.C73_precedence"], "note": ""},
{"property": "C74", "status": "proved", "theorems": ["Nxt.Props.C74_cycle_fails"], "note": ""},
{"property": "C75", "status": "partial", "theorems": ["Nxt.Props.C75_composed_partial", "Nxt.Props.C75_source_violation"], "note": "Values proved; the recorded source is wrong in the code (violation theorem)."},
{"property": "C76", "status": "proved", "theorems": ["Nxt.Props.C76_layers"], "note": ""},
{"property": "C77", "status": "partial", "theorems": ["Nxt.Props.C77_plain_sources_partial", "Nxt.Props.C77_conflict_violation"], "note": "Proved when every instance source is plain; conflict witness for the general claim."},
{"property": "C78", "status": "partial", "theorems": ["Nxt.Props.C78_deep_sort_partial", "Nxt.Props.C78_absolute", "Nxt.Props.C78_deep_violation"], "note": "A source with a longer trace which is itself an instance of a node can come after its instance (C78_deep_violation)."},
{"property": "C79", "status": "proved", "theorems": ["Nxt.Props.C79_sound", "Nxt.Props.C79_ends", "Nxt.Props.C79_scan"], "note": ""},
{"property": "C80", "status": "partial", "theorems": ["Nxt.Props.C80_exact_partial", "Nxt.Props.C80_override_violation", "Nxt.Props.C80_plain"], "note": "Exact for calm starts, and for separate instances without further conditions, nodes kept below an instance included when there is nothing below what they stand for (C80_plain); C80_override_violation shows the full claim false."},
{"property": "C81", "status": "partial", "theorems": ["Nxt.Props.C81_endless", "Nxt.Props.C81_endless_violation"], "note": "False in general (C81_endless_violation); ends whenever finitely many nodes follow (C79_ends)."},
{"property": "C82", "status": "partial", "theorems": ["Nxt.Props.C82_implied_partial", "Nxt.Props.C82_chain_violation"], "note": "For calm starts and sources which are no instances; C82_chain_violation shows the full claim false."},
{"property": "C83", "status": "partial", "theorems": ["Nxt.Props.C83_empty_kept", "Nxt.Props.C83_overwritten_violation"], "note": "Empty instance paths are kept; others can be overwritten (C83_overwritten_violation)."},
{"property": "C84", "status": "proved", "theorems": ["Nxt.Props.C84_child_orders", "Nxt.Props.C84_instance_order", "Nxt.Props.C84_source_violation"], "note": ""},
{"property": "C85", "status": "partial", "theorems": ["Nxt.Props.C85_add", "Nxt.Props.C85_muted_violation"], "note": "On layers which are not muted; muted layers: C85_muted_violation."},
{"property": "C86", "status": "partial", "theorems": ["Nxt.Props.C86_delete", "Nxt.Props.C86_absent", "Nxt.Props.C86_class_violation", "Nxt.Props.C86_add_delete"], "note": "Own attributes deleted exactly; attributes of the class raise: C86_class_violation."},
{"property": "C87", "status": "partial", "theorems": ["Nxt.Props.C87_rename", "Nxt.Props.C87_back", "Nxt.Props.C87_same_name_violation", "Nxt.Props.C87_muted_violation"], "note": "Active layers and other names; fails for the same name and for muted layers (violations)."},
{"property": "C88", "status": "partial", "theorems": ["Nxt.Props.C88_set", "Nxt.Props.C88_not_created", "Nxt.Props.C88_create_partial", "Nxt.Props.C88_type_violation", "Nxt.Props.C88_order_violation", "Nxt.Props.C88_illegal_name_violation", "Nxt.Props.C88_builtin_violation", "Nxt.Props.C88_muted_violation"], "note": "Existing attributes exactly; creation for legal free names with value then comment; other cases fail (violations)."},
{"property": "C89", "status": "partial", "theorems": ["Nxt.Props.C89_copy", "Nxt.Props.C89_order", "Nxt.Props.C89_false_violation", "Nxt.Props.C89_illegal_violation"], "note": "Copy proved for legal names new to the target; false values become texts, illegal names depend on order (violations)."},
{"property": "C90", "status": "partial", "theorems": ["Nxt.Props.C90_remove", "Nxt.Props.C90_ends", "Nxt.Props.C90_no_exception", "Nxt.Props.C90_all_partial", "Nxt.Props.C90_every_second", "Nxt.Props.C90_second_violation", "Nxt.Props.C90_key_error_violation"], "note": "all referenced layers are removed only in chains; in a list of sub layers every second one stays (proved as violation); KeyError for references without layers"},
{"property": "C91", "status": "partial", "theorems": ["Nxt.Props.C91_new", "Nxt.Props.C91_parent", "Nxt.Props.C91_undo", "Nxt.Props.C91_top", "Nxt.Props.C91_double_violation", "Nxt.Props.C91_real_path_violation"], "note": "layers without parent: only at the top and if all others are referenced; double references below the top and real path against file path are proved violations"},
{"property": "C92", "status": "proved", "theorems": ["Nxt.Props.C92_add_reference", "Nxt.Props.C92_new", "Nxt.Props.C92_assign"], "note": ""},
{"property": "C93", "status": "partial", "theorems": ["Nxt.Props.C93_names", "Nxt.Props.C93_reset", "Nxt.Props.C93_composition", "Nxt.Props.C93_composed_partial", "Nxt.Props.C93_removed_violation", "Nxt.Props.C93_stronger_violation", "Nxt.Props.C93_fold_violation"], "note": "agreement with composition only for the strongest layer and at most one weaker order; stronger layers, more orders and removed names are proved violations"},
{"property": "C94", "status": "partial", "theorems": ["Nxt.Props.C94_each", "Nxt.Props.C94_ordered", "Nxt.Props.C94_in_place", "Nxt.Props.C94_other", "Nxt.Props.C94_has_new", "Nxt.Props.C94_double_violation", "Nxt.Props.C94_lost_violation", "Nxt.Props.C94_set"], "note": "doubled and lost names are proved violations"},
{"property": "C95", "status": "partial", "theorems": ["Nxt.Props.C95_reverted", "Nxt.Props.C95_kept_violation"], "note": "edits of the layer are not removed (proved violation)"},
{"property": "C96", "status": "partial", "theorems": ["Nxt.Props.C96_insert_partial", "Nxt.Props.C96_proxy", "Nxt.Props.C96_lost_violation"], "note": "a weaker spec or a composite base that is no proxy is needed; otherwise C96_lost_violation shows the specs are lost"},
{"property": "C97", "status": "proved", "theorems": ["Nxt.Props.C97_all", "Nxt.Props.C97_instances", "Nxt.Props.C97_others"], "note": ""},
{"property": "C98", "status": "partial", "theorems": ["Nxt.Props.C98_reference", "Nxt.Props.C98_parent", "Nxt.Props.C98_instance_partial", "Nxt.Props.C98_implied_violation"], "note": "reference and parent arcs proved; instance arc characterised, with C98_implied_violation for nodes without instance path"},
{"property": "C99", "status": "partial", "theorems": ["Nxt.Props.C99_values", "Nxt.Props.C99_source_violation", "Nxt.Props.C99_order_set", "Nxt.Props.C99_order_names", "Nxt.Props.C99_order_violation"], "note": "bases, values and names of the child order proved; sources and order of names fail (violations)"},
{"property": "C100", "status": "partial", "theorems": ["Nxt.Props.C100_lines", "Nxt.Props.C100_error_line", "Nxt.Props.C100_custom_violation"], "note": "Lines and error lines for node code proved; custom code reports the line before."},
{"property": "C101", "status": "partial", "theorems": ["Nxt.Props.C101_node", "Nxt.Props.C101_others", "Nxt.Props.C101_dependents_partial", "Nxt.Props.C101_stop_violation", "Nxt.Props.C101_stronger_violation"], "note": "Node and others proved; dependents as far as the loop goes; violations proved."},
{"property": "C102", "status": "partial", "theorems": ["Nxt.Props.C102_plain", "Nxt.Props.C102_instance_partial", "Nxt.Props.C102_hidden_violation", "Nxt.Props.C102_dependents_partial", "Nxt.Props.C102_stop_violation"], "note": "Node without instance proved; instance without other specs; dependents sharing the list; violations proved."},
{"property": "C103", "status": "partial", "theorems": ["Nxt.Props.C103_node_partial", "Nxt.Props.C103_others", "Nxt.Props.C103_stronger_violation", "Nxt.Props.C103_source_violation", "Nxt.Props.C103_cleared_violation", "Nxt.Props.C103_dependents_violation"], "note": "Without stronger opinions and with agreeing sources; violations proved."},
{"property": "C104", "status": "partial", "theorems": ["Nxt.Props.C104_attr_names", "Nxt.Props.C104_dir", "Nxt.Props.C104_cover", "Nxt.Props.C104_inherited", "Nxt.Props.C104_nodup", "Nxt.Props.C104_instanced_partial", "Nxt.Props.C104_local_violation", "Nxt.Props.C104_implied_violation", "Nxt.Props.C104_calls_violation"], "note": "Cover, inherited names and uniqueness proved; instanced names not local only without such names at the parent; violations proved."},
{"property": "C105", "status": "partial", "theorems": ["Nxt.Props.C105_layers", "Nxt.Props.C105_empty_violation", "Nxt.Props.C105_uncomped"], "note": "Proved; an empty list of layers means all layers."},
{"property": "C106", "status": "partial", "theorems": ["Nxt.Props.C106_history", "Nxt.Props.C106_read", "Nxt.Props.C106_local_partial", "Nxt.Props.C106_empty_violation"], "note": "History proved; the opinion left out is the local one only if the node shows an opinion."},
{"property": "C107", "status": "partial", "theorems": ["Nxt.Props.C107_copies_partial", "Nxt.Props.C107_no_instances_partial", "Nxt.Props.C107_node_only", "Nxt.Props.C107_world", "Nxt.Props.C107_other_layer_violation", "Nxt.Props.C107_instance_violation", "Nxt.Props.C107_gap_violation", "Nxt.Props.C107_capture_violation", "Nxt.Props.C107_name_violation", "Nxt.Props.C107_parents_made"], "note": "without gaps, instances in the copied sub-tree and names to be legalised; the world and single nodes in full"},
{"property": "C108", "status": "proved", "theorems": ["Nxt.Props.C108_hierarchy", "Nxt.Props.C108_again", "Nxt.Props.C108_parent_violation"], "note": "with a parent given it is violated (no caller does so)"},
{"property": "C109", "status": "partial", "theorems": ["Nxt.Props.C109_flat_tokens", "Nxt.Props.C109_kind_violation", "Nxt.Props.C109_partition", "Nxt.Props.C109_sources_partial", "Nxt.Props.C109_complete_partial", "Nxt.Props.C109_file_violation", "Nxt.Props.C109_dots_violation", "Nxt.Props.C109_nested_violation", "Nxt.Props.C109_self_violation", "Nxt.Props.C109_attribute"], "note": "flat texts whose references name their nodes; nested tokens, dots and other kinds are violated"},
{"property": "C110", "status": "partial", "theorems": ["Nxt.Props.C110_recalled_partial", "Nxt.Props.C110_agrees_partial", "Nxt.Props.C110_file", "Nxt.Props.C110_no_file", "Nxt.Props.C110_place_violation", "Nxt.Props.C110_around_violation", "Nxt.Props.C110_nested_violation", "Nxt.Props.C110_special_violation"], "note": "Tokens are not nested and of no special kind, replacements contain no opener; agreement with resolve when references in values are written from the root on; violations proved."},
{"property": "C111", "status": "partial", "theorems": ["Nxt.Props.C111_history_partial", "Nxt.Props.C111_recomposed_partial", "Nxt.Props.C111_others", "Nxt.Props.C111_gap_violation", "Nxt.Props.C111_settings_partial", "Nxt.Props.C111_settings_violation", "Nxt.Props.C111_made_partial", "Nxt.Props.C111_opinions_partial", "Nxt.Props.C111_made_opinions_partial", "Nxt.Props.C111_listed"], "note": "histories of add_node calls that add leaves or further specs, without instances; violations for gaps and implied parents"},
{"property": "C112", "status": "partial", "theorems": ["Nxt.Props.C112_history_partial", "Nxt.Props.C112_recomposed_partial", "Nxt.Props.C112_orphan_violation", "Nxt.Props.C112_opinions_partial", "Nxt.Props.C112_functions"], "note": "No instances; the last spec of a node is deleted only if nothing is below it; settings need real parents. The orphan case is proved as a violation."},
{"property": "C113", "status": "partial", "theorems": ["Nxt.Props.C113_cache_partial", "Nxt.Props.C113_world_violation", "Nxt.Props.C113_inherited_violation"], "note": "Falsy or unserialisable values come back as None, the world loses its code and inherited attributes (proved as violations); the JSON text is C158."},
{"property": "C114", "status": "partial", "theorems": ["Nxt.Props.C114_lower_partial", "Nxt.Props.C114_none", "Nxt.Props.C114_as_composed_partial", "Nxt.Props.C114_strongest", "Nxt.Props.C114_code_violation", "Nxt.Props.C114_instance_violation"], "note": "Proved when no node of the lineage has an instance path in the lower layers. Following instances is not modelled; that an instance path of a weaker layer, and code of a weaker layer, are lost is proved as violations."},
{"property": "C115", "status": "partial", "theorems": ["Nxt.Props.C115_layers", "Nxt.Props.C115_set_partial", "Nxt.Props.C115_stronger_partial", "Nxt.Props.C115_overruled_violation", "Nxt.Props.C115_clear_partial", "Nxt.Props.C115_weaker_violation", "Nxt.Props.C115_relative_violation", "Nxt.Props.C115_silent_violation", "Nxt.Props.C115_twice_violation"], "note": "Setting is proved when no stronger layer has an opinion, clearing for paths from the root on with the composite node in step; the remaining cases are proved to fail."},
{"property": "C116", "status": "partial", "theorems": ["Nxt.Props.C116_flow_partial", "Nxt.Props.C116_ran", "Nxt.Props.C116_untouched", "Nxt.Props.C116_composed", "Nxt.Props.C116_commute", "Nxt.Props.C116_text_violation", "Nxt.Props.C116_new_violation", "Nxt.Props.C116_equal_violation", "Nxt.Props.C116_deleted_violation"], "note": "code deleting attributes is left out; texts, new attributes and equal values of other types are violations"},
{"property": "C117", "status": "partial", "theorems": ["Nxt.Props.C117_root", "Nxt.Props.C117_inside_partial", "Nxt.Props.C117_missing", "Nxt.Props.C117_first", "Nxt.Props.C117_index_violation", "Nxt.Props.C117_cycle_violation", "Nxt.Props.C117_world", "Nxt.Props.C117_helper", "Nxt.Props.C117_helper_other", "Nxt.Props.C117_helper_start", "Nxt.Props.C117_custom", "Nxt.Props.C117_custom_closed"], "note": "chains of roots without cycle; inside a root which is switched off nodes run all the same; an index as start is ignored"},
{"property": "C118", "status": "partial", "theorems": ["Nxt.Props.C118_refused", "Nxt.Props.C118_others", "Nxt.Props.C118_round_trip", "Nxt.Props.C118_which_file", "Nxt.Props.C118_not_loaded", "Nxt.Props.C118_binary_violation", "Nxt.Props.C118_lost_violation", "Nxt.Props.C118_tuple_violation", "Nxt.Props.C118_where", "Nxt.Props.C118_layer_round_trip_partial", "Nxt.Props.C118_not_saved", "Nxt.Props.C118_save_as", "Nxt.Props.C118_stale_violation", "Nxt.Props.C118_text_round_trip_partial"], "note": "mute, solo and lock are not kept; the binary format, failed writes and saving under another name violate the claim (C118_*_violation)"},
{"property": "C119", "status": "partial", "theorems": ["Nxt.Props.C119_registry_partial", "Nxt.Props.C119_unload", "Nxt.Props.C119_stage", "Nxt.Props.C119_load_error", "Nxt.Props.C119_load", "Nxt.Props.C119_names_violation", "Nxt.Props.C119_save_violation", "Nxt.Props.C119_filepath_violation", "Nxt.Props.C119_reload_violation", "Nxt.Props.C119_untitled_violation", "Nxt.Props.C119_clock_violation"], "note": "proved for increasing clock readings; path lookup, unused names and save_file are violated by the code, as proved"},
{"property": "C120", "status": "partial", "theorems": ["Nxt.Props.C120_started", "Nxt.Props.C120_borrowed", "Nxt.Props.C120_unneeded", "Nxt.Props.C120_embedded", "Nxt.Props.C120_foreign", "Nxt.Props.C120_balanced_partial", "Nxt.Props.C120_port", "Nxt.Props.C120_late_violation", "Nxt.Props.C120_dead_violation", "Nxt.Props.C120_lost_violation", "Nxt.Props.C120_stopped_violation", "Nxt.Props.C120_other_killed_violation", "Nxt.Props.C120_build_violation", "Nxt.Props.C120_verbose_violation"], "note": "proved for sessions holding no server at first, prompt servers and stages which build; the other cases are violated by the code, as proved"},
{"property": "C121", "status": "partial", "theorems": ["Nxt.Props.C121_find", "Nxt.Props.C121_register", "Nxt.Props.C121_shadowed_violation", "Nxt.Props.C121_call", "Nxt.Props.C121_call_args_partial", "Nxt.Props.C121_refused", "Nxt.Props.C121_start_violation", "Nxt.Props.C121_relative_violation", "Nxt.Props.C121_empty", "Nxt.Props.C121_create", "Nxt.Props.C121_create_refused", "Nxt.Props.C121_relpath", "Nxt.Props.C121_graph_violation"], "note": "start nodes, relative paths, given context graphs and taken names are violated by the code, as proved"},
{"property": "C122", "status": "partial", "theorems": ["Nxt.Props.C122_address", "Nxt.Props.C122_default", "Nxt.Props.C122_host_violation"], "note": "the recorded host is not read, as proved"},
{"property": "C123", "status": "partial", "theorems": ["Nxt.Props.C123_session_partial", "Nxt.Props.C123_shared_violation", "Nxt.Props.C123_stacked_violation", "Nxt.Props.C123_first_partial", "Nxt.Props.C123_env", "Nxt.Props.C123_env_violation", "Nxt.Props.C123_sockets"], "note": "a session log under a name used once, the first verbosity, the exact behaviour with the environment variable and the sockets are proved; stacking handlers, a verbosity that cannot be undone and shared log names are proved violations"},
{"property": "C124", "status": "partial", "theorems": ["Nxt.Props.C124_stands_partial", "Nxt.Props.C124_change_partial", "Nxt.Props.C124_fails_violation", "Nxt.Props.C124_lost_violation", "Nxt.Props.C124_dependants_violation", "Nxt.Props.C124_world_violation"], "note": "for instance sources which are plain and have nothing below them; for others the code fails or leaves other bases, which is proved"},
{"property": "C125", "status": "partial", "theorems": ["Nxt.Props.C125_located_partial", "Nxt.Props.C125_syntax", "Nxt.Props.C125_own_partial", "Nxt.Props.C125_path_violation", "Nxt.Props.C125_custom_violation", "Nxt.Props.C125_nested_violation"], "note": "fails after execute in node code and for custom code (violations proved)"},
{"property": "C126", "status": "partial", "theorems": ["Nxt.Props.C126_frames", "Nxt.Props.C126_brackets", "Nxt.Props.C126_abort_partial", "Nxt.Props.C126_times", "Nxt.Props.C126_reentry_violation", "Nxt.Props.C126_alone", "Nxt.Props.C126_caller_partial", "Nxt.Props.C126_self_violation", "Nxt.Props.C126_running_partial", "Nxt.Props.C126_running_violation", "Nxt.Props.C126_interrupt_violation", "Nxt.Props.C126_globals_violation"], "note": "self, variables and the running mark are not restored after execute; a running node can not be executed (violations proved)"},
{"property": "C127", "status": "partial", "theorems": ["Nxt.Props.C127_opinions_partial", "Nxt.Props.C127_composed_partial", "Nxt.Props.C127_plain", "Nxt.Props.C127_success_violation"], "note": "values, nodes and what each node takes from proved independent of the node order when both orders compose; success itself depends on the order (violation proved); complete for plain instance sources"},
{"property": "C128", "status": "partial", "theorems": ["Nxt.Props.C128_reopens", "Nxt.Props.C128_attributes_partial", "Nxt.Props.C128_composed_partial", "Nxt.Props.C128_plain", "Nxt.Props.C128_success_violation"], "note": "whenever both compositions succeed everything agrees as far as it is saved, and both succeed for plain sources; the opened stage can fail to compose (C128_success_violation)"},
{"property": "C129", "status": "partial", "theorems": ["Nxt.Props.C129_reported_partial", "Nxt.Props.C129_silent_partial", "Nxt.Props.C129_self_violation", "Nxt.Props.C129_relative_violation"], "note": "The node itself is not looked at and relative instance paths give false warnings; both proved as violations."},
{"property": "C130", "status": "partial", "theorems": ["Nxt.Props.C130_released", "Nxt.Props.C130_covered_partial", "Nxt.Props.C130_run_violation", "Nxt.Props.C130_answer_violation", "Nxt.Props.C130_handlers", "Nxt.Props.C130_log_violation"], "note": "Running with a missing runtime layer, a server which does not answer, and logging after a stale socket violate the claim; proved as violations."},
{"property": "C131", "status": "partial", "theorems": ["Nxt.Props.C131_loaded", "Nxt.Props.C131_raises", "Nxt.Props.C131_again", "Nxt.Props.C131_tokens", "Nxt.Props.C131_list", "Nxt.Props.C131_path", "Nxt.Props.C131_path_layer", "Nxt.Props.C131_path_violation"], "note": "A path token looks only at the first file root; proved as a violation."},
{"property": "C132", "status": "partial", "theorems": ["Nxt.Props.C132_rename_back_partial", "Nxt.Props.C132_rename_order", "Nxt.Props.C132_parent_back", "Nxt.Props.C132_parent_order_violation", "Nxt.Props.C132_add_delete", "Nxt.Props.C132_delete_add"], "note": "renaming back needs that nothing is missing below the node (C68); moving back restores all paths, but the node comes last in the child order (violation proved for every node moved)"},
{"property": "C133", "status": "partial", "theorems": ["Nxt.Props.C133_short", "Nxt.Props.C133_single", "Nxt.Props.C133_long", "Nxt.Props.C133_prefix_violation", "Nxt.Props.C133_even_same", "Nxt.Props.C133_even", "Nxt.Props.C133_even_violation", "Nxt.Props.C133_joins", "Nxt.Props.C133_single_violation", "Nxt.Props.C133_empty"], "note": "closed forms for all pairs of namespaces but one kind, for which only the beginning of the result is given; sources below the target, single names, and a missing break give other results than claimed (violations proved)"},
{"property": "C134", "status": "partial", "theorems": ["Nxt.Props.C134_ancestors", "Nxt.Props.C134_paths", "Nxt.Props.C134_any", "Nxt.Props.C134_missing", "Nxt.Props.C134_top_violation", "Nxt.Props.C134_names_violation"], "note": "get_top_node gives the nearest ancestor and the dict of names names the wrong nodes (violations proved)"},
{"property": "C135", "status": "partial", "theorems": ["Nxt.Props.C135_next", "Nxt.Props.C135_prev_partial", "Nxt.Props.C135_first_violation", "Nxt.Props.C135_twice_violation", "Nxt.Props.C135_outside"], "note": "the first node is never a previous node and repeated nodes are left towards the first successor (violations proved)"},
{"property": "C136", "status": "partial", "theorems": ["Nxt.Props.C136_steps", "Nxt.Props.C136_keeps_partial", "Nxt.Props.C136_again", "Nxt.Props.C136_labels", "Nxt.Props.C136_before_110", "Nxt.Props.C136_beside", "Nxt.Props.C136_replaced", "Nxt.Props.C136_no_dot_violation", "Nxt.Props.C136_newer_violation", "Nxt.Props.C136_no_version_violation", "Nxt.Props.C136_old", "Nxt.Props.C136_old_again", "Nxt.Props.C136_115"], "note": "Files of all released versions end to end: up to 1.9 (C136_old), 1.10 to 1.14, 1.15. Pre-release files are C155. Violated for file names without a dot with replace, for newer versions and for a missing version."},
{"property": "C137", "status": "partial", "theorems": ["Nxt.Props.C137_order_partial", "Nxt.Props.C137_execute_partial", "Nxt.Props.C137_start_partial", "Nxt.Props.C137_two_next_violation", "Nxt.Props.C137_unlisted_violation", "Nxt.Props.C137_two_starts_violation"], "note": "Needs complete child orders, at most one root executing after each root and at most one start point; the violations show that otherwise the order of the nodes in the layer decides."},
{"property": "C138", "status": "partial", "theorems": ["Nxt.Props.C138_tidy", "Nxt.Props.C138_order_partial", "Nxt.Props.C138_execute_partial", "Nxt.Props.C138_plain", "Nxt.Props.C138_two_next_violation"], "note": "Needs that both graphs compose (C138_plain: true if sources of instances are plain) and that no two roots execute after the same one (C138_two_next_violation); graphs without proxies."},
{"property": "C139", "status": "partial", "theorems": ["Nxt.Props.C139_loaded", "Nxt.Props.C139_kept", "Nxt.Props.C139_below", "Nxt.Props.C139_other_paths", "Nxt.Props.C139_other_state_partial", "Nxt.Props.C139_beside_partial", "Nxt.Props.C139_mute_active_partial", "Nxt.Props.C139_solo_active_partial", "Nxt.Props.C139_baked", "Nxt.Props.C139_reopened_partial", "Nxt.Props.C139_own_state_lost_violation", "Nxt.Props.C139_beside_violation", "Nxt.Props.C139_baked_violation", "Nxt.Props.C139_solo_lost_violation"], "note": "Entries for the path must exist at or above the layer or nowhere, and own states are lost on loading; the violations show the other cases"},
{"property": "C140", "status": "partial", "theorems": ["Nxt.Props.C140_computes_partial", "Nxt.Props.C140_plain", "Nxt.Props.C140_falsy_violation"], "note": "code violates the full claim for falsy values (C140_falsy_violation); composing of the reopened graph is shown for plain instances"},
{"property": "C141", "status": "partial", "theorems": ["Nxt.Props.C141_run", "Nxt.Props.C141_names_partial", "Nxt.Props.C141_kept", "Nxt.Props.C141_tables_partial", "Nxt.Props.C141_new_partial", "Nxt.Props.C141_exit_violation", "Nxt.Props.C141_world_param_violation"], "note": "The code violates it when the world's code raises ExitNode, and for parameters of a world no layer has; a mention after global need not be a declaration."},
{"property": "C142", "status": "partial", "theorems": ["Nxt.Props.C142_reads_partial", "Nxt.Props.C142_passes_partial", "Nxt.Props.C142_none_violation"], "note": "Texts made of unnested attribute references whose values have no references themselves; None arrives as the empty text (violation proved)."},
{"property": "C143", "status": "partial", "theorems": ["Nxt.Props.C143_composed", "Nxt.Props.C143_refines", "Nxt.Props.C143_alike_partial", "Nxt.Props.C143_shadow_violation"], "note": "Closed form proved for all layers with separate instances, with nodes kept below an instance when what they stand for has nothing below it; that a copy has every attribute of what it copies is violated by the code (C143_shadow_violation)."},
{"property": "C144", "status": "partial", "theorems": ["Nxt.Props.C144_taken", "Nxt.Props.C144_mute_partial", "Nxt.Props.C144_muted_violation", "Nxt.Props.C144_refused", "Nxt.Props.C144_world", "Nxt.Props.C144_world_taken", "Nxt.Props.C144_cwd_violation"], "note": "The nodes, directory and path are those of the contributing layers; positions and collapse states of muted layers and of layers above from_idx stay in the composite layer (C144_muted_violation), and muting the top layer moves the working directory (C144_cwd_violation)."},
{"property": "C145", "status": "partial", "theorems": ["Nxt.Props.C145_order", "Nxt.Props.C145_reopened_partial"], "note": "instances whose trees are separate; a file does not keep every value, nor an instance path or the enabled state of the world"},
{"property": "C146", "status": "partial", "theorems": ["Nxt.Props.C146_made", "Nxt.Props.C146_refreshed", "Nxt.Props.C146_source", "Nxt.Props.C146_followed", "Nxt.Props.C146_data", "Nxt.Props.C146_meta_partial", "Nxt.Props.C146_saved_violation", "Nxt.Props.C146_muted_violation", "Nxt.Props.C146_twice_violation", "Nxt.Props.C146_comment_violation", "Nxt.Props.C146_name_violation"], "note": "Proved for layers as refresh leaves them, with instances whose trees are separate. Sources go stale after a save under another name and on muted layers, are ambiguous when a file is in two layers, and comments are inherited apart from values."},
{"property": "C147", "status": "partial", "theorems": ["Nxt.Props.C147_recomposed_partial", "Nxt.Props.C147_followed_partial", "Nxt.Props.C147_signed", "Nxt.Props.C147_comment_violation", "Nxt.Props.C147_shown"], "note": "Histories of attribute edits, instances whose trees are separate as in C143. set_node_comment and set_node_exec_in are not brought to the composite layer (C147_comment_violation)."},
{"property": "C148", "status": "partial", "theorems": ["Nxt.Props.C148_children", "Nxt.Props.C148_descendants_partial", "Nxt.Props.C148_executes_partial", "Nxt.Props.C148_order_violation"], "note": "Children of instances proved for every instance; the same execution order for instances without nodes of their own, root to root; with own nodes the code may order differently (C148_order_violation)."},
{"property": "C149", "status": "partial", "theorems": ["Nxt.Props.C149_order_partial", "Nxt.Props.C149_execute_partial"], "note": "Holds if no two nodes execute after the same root and there is one start point, for separate instances and child orders without names of nodes which are gone; C138_two_next_violation shows the first is needed."},
{"property": "C150", "status": "partial", "theorems": ["Nxt.Props.C150_computes_partial"], "note": "Holds for values a file can hold (C140_falsy_violation), if no two nodes execute after the same root (C138_two_next_violation), for separate instances."},
{"property": "C151", "status": "partial", "theorems": ["Nxt.Props.C151_unique", "Nxt.Props.C151_reads_partial", "Nxt.Props.C151_passes_partial"], "note": "chains of references of any length and nesting; not nested token texts, $${, values with ${ left in them, plugins, system attributes"},
{"property": "C152", "status": "partial", "theorems": ["Nxt.Props.C152_arcs_partial", "Nxt.Props.C152_spec", "Nxt.Props.C152_instance_partial", "Nxt.Props.C152_layer", "Nxt.Props.C152_implied_violation", "Nxt.Props.C152_refused_violation"], "note": "Proved for stages with instances whose parents are all given; the code files the node above an implied parent as an instance source and gives an instance for refused instance paths (violations proved)."},
{"property": "C153", "status": "partial", "theorems": ["Nxt.Props.C153_targets_partial", "Nxt.Props.C153_loop_violation", "Nxt.Props.C153_composed_partial", "Nxt.Props.C153_refused_violation"], "note": "The node must not stand for itself, else no depth of calls is enough (C153_loop_violation); a refused instance path still counts (C153_refused_violation)."},
{"property": "C154", "status": "partial", "theorems": ["Nxt.Props.C154_tree_partial", "Nxt.Props.C154_renamed", "Nxt.Props.C154_unnamed", "Nxt.Props.C154_twins_violation", "Nxt.Props.C154_replaced_violation"], "note": "names distinct and free are needed to be kept; without fix_names nodes are overwritten (proved)"},
{"property": "C155", "status": "partial", "theorems": ["Nxt.Props.C155_unpacked", "Nxt.Props.C155_whole", "Nxt.Props.C155_no_data_violation", "Nxt.Props.C155_unlisted_violation", "Nxt.Props.C155_refused"], "note": "Sibling names distinct and without slashes; nodes not listed by a parent with data are left out, a file without data raises (violations); the widget type is lost."},
{"property": "C156", "status": "partial", "theorems": ["Nxt.Props.C156_exec", "Nxt.Props.C156_convert", "Nxt.Props.C156_one", "Nxt.Props.C156_asked_partial", "Nxt.Props.C156_old", "Nxt.Props.C156_gui_violation", "Nxt.Props.C156_legacy_verb_violation", "Nxt.Props.C156_replace_violation", "Nxt.Props.C156_files", "Nxt.Props.C156_others", "Nxt.Props.C156_empty", "Nxt.Props.C156_unknown_words", "Nxt.Props.C156_verbose", "Nxt.Props.C156_quiet", "Nxt.Props.C156_verbose_violation"], "note": "The statement fails for -gui, legacy, an empty -r and -v of the old style (violation theorems); argparse is not modelled."},
{"property": "C157", "status": "partial", "theorems": ["Nxt.Props.C157_alias_seen", "Nxt.Props.C157_color_seen", "Nxt.Props.C157_lock_seen", "Nxt.Props.C157_local", "Nxt.Props.C157_alias_set", "Nxt.Props.C157_color_set", "Nxt.Props.C157_lock_set", "Nxt.Props.C157_clear_partial", "Nxt.Props.C157_top", "Nxt.Props.C157_find", "Nxt.Props.C157_find_set", "Nxt.Props.C157_kept_violation", "Nxt.Props.C157_locked_violation"], "note": "Removing an override leaves entries of layers between and locks without a colour entry (violation theorems); the rest is proved for all stages."},
{"property": "C158", "status": "proved", "theorems": ["Nxt.Props.C158_read_back", "Nxt.Props.C158_same_text", "Nxt.Props.C158_ascii", "Nxt.Props.C158_disk", "Nxt.Props.C158_cut", "Nxt.Props.C158_unfinished", "Nxt.Props.C158_one_place", "Nxt.Props.C158_saved", "Nxt.Props.C158_stopped", "Nxt.Props.C158_file_read_back", "Nxt.Props.C158_layer_saved"], "note": "The json package's writer (indent 4) and reader; fractions, NaN and lone surrogates are left out."},
{"property": "C159", "status": "proved", "theorems": ["Nxt.Props.C159_reformatted", "Nxt.Props.C159_exact", "Nxt.Props.C159_one_meaning", "Nxt.Props.C159_written", "Nxt.Props.C159_files", "Nxt.Props.C159_layout"], "note": "Grammar without fractions, exponents and lone surrogates."},
{"property": "C160", "status": "proved", "theorems": ["Nxt.Props.C160_last", "Nxt.Props.C160_order", "Nxt.Props.C160_lost_violation", "Nxt.Props.C160_ignored"], "note": "the loss of earlier entries is proved as C160_lost_violation"},
{"property": "C161", "status": "partial", "theorems": ["Nxt.Props.C161_refused", "Nxt.Props.C161_served_partial", "Nxt.Props.C161_unshared_violation", "Nxt.Props.C161_empty_violation"], "note": "proved when the contexts of the caller are among those of the server; false otherwise and for the empty name (C161_unshared_violation, C161_empty_violation)"},
{"property": "C162", "status": "partial", "theorems": ["Nxt.Props.C162_one_meaning", "Nxt.Props.C162_short", "Nxt.Props.C162_long", "Nxt.Props.C162_taken", "Nxt.Props.C162_documented_violation"], "note": "which texts are literals is exact; the marks are not those documented (C162_documented_violation)"},
{"property": "C163", "status": "partial", "theorems": ["Nxt.Props.C163_place", "Nxt.Props.C163_behind_violation", "Nxt.Props.C163_exact", "Nxt.Props.C163_loaded", "Nxt.Props.C163_shared_violation", "Nxt.Props.C163_slice_violation"], "note": "exact: holds just if the layer is registered at the end; violated otherwise (C163_behind_violation, C163_shared_violation); the public new_sublayer numbers all layers anew (C91_new)"},
{"property": "C164", "status": "partial", "theorems": ["Nxt.Props.C164_node", "Nxt.Props.C164_order", "Nxt.Props.C164_layer_partial", "Nxt.Props.C164_values", "Nxt.Props.C164_identity_violation"], "note": "nodes and values in full; which paths are kept for a world path which is the object WORLD (C164_identity_violation otherwise)"}
]}
