# Which code is modelled

Every function of `/repo/nxt` outside its tests, with the model files (`lean/Verif/Model`) citing lines of it.  A function
cited may be modelled in part; the comments in the model say what is left out.  "–" marks functions no model cites.

## nxt/__init__.py (2 of 2)

| lines | function | model |
|---|---|---|
| 36-60 | `execute_graph` | OneShot |
| 63-138 | `create_context` | Contexts |

## nxt/clean_json.py (1 of 2)

| lines | function | model |
|---|---|---|
| 4-5 | `load` | – |
| 8-26 | `_byteify` | Disk |

## nxt/cli.py (5 of 7)

| lines | function | model |
|---|---|---|
| 37-49 | `CustomParser.error` | Commands |
| 52-59 | `count_down` | – |
| 62-77 | `get_version` | – |
| 80-95 | `editor` | Commands |
| 98-138 | `execute` | Commands, Runtime |
| 141-147 | `convert` | Commands |
| 150-281 | `main` | Commands, Contexts |

## nxt/constants.py (0 of 1)

| lines | function | model |
|---|---|---|
| 84-85 | `is_standalone` | – |

## nxt/legacy.py (34 of 41)

| lines | function | model |
|---|---|---|
| 24-45 | `FileConverter.__init__` | Version |
| 47-64 | `FileConverter.determine_version` | Convert, Version |
| 67-75 | `FileConverter.get_converted_data` | Convert |
| 79-87 | `LegacyFileConverter.__init__` | – |
| 89-92 | `LegacyFileConverter.convert` | – |
| 95-102 | `LegacyFileConverter.get_converted` | – |
| 106-110 | `V1.__init__` | – |
| 112-127 | `V1.convert` | Legacy, PreRelease |
| 129-162 | `V1.unpack_node_data` | Legacy, PreRelease |
| 164-200 | `V1.arrange_node_data` | Legacy |
| 182-188 | `V1.arrange_node_data.handle_path_at_depth` | Legacy |
| 202-220 | `V1.deep_order_data` | Legacy |
| 222-232 | `V1.drop_nodes` | Legacy |
| 235-236 | `V1.has_opinion` | Legacy |
| 238-241 | `V1.is_ancestor` | Legacy |
| 244-247 | `V1._add_path_terminator` | Legacy |
| 250-252 | `V1.get_parent_path` | Legacy |
| 255-257 | `V1.get_name_from_path` | Legacy |
| 261-265 | `V109.__init__` | – |
| 267-272 | `V109.convert` | Convert |
| 274-315 | `V109.update_refs` | Convert, Legacy |
| 317-326 | `V109.update_meta_data` | Convert |
| 328-364 | `V109.arrange_node_data` | Convert, Legacy |
| 346-352 | `V109.arrange_node_data.handle_path_at_depth` | Convert, Legacy |
| 366-385 | `V109.deep_order_data` | Convert, Legacy |
| 387-390 | `V109.is_ancestor` | Legacy |
| 393-396 | `V109._add_path_terminator` | Legacy |
| 400-404 | `V114.__init__` | – |
| 406-416 | `V114.convert` | Legacy |
| 418-454 | `V114.arrange_node_data` | Legacy |
| 436-442 | `V114.arrange_node_data.handle_path_at_depth` | Legacy |
| 456-475 | `V114.deep_order_data` | Legacy |
| 477-480 | `V114.is_ancestor` | Legacy |
| 483-486 | `V114._add_path_terminator` | Legacy |
| 490-494 | `V115.__init__` | – |
| 496-499 | `V115.convert` | Legacy |
| 501-526 | `V115.order_save_data` | Legacy |
| 528-534 | `V115.order_nodes_dict` | Legacy |
| 536-555 | `V115.order_node_data` | Legacy |
| 557-570 | `V115.order_meta_data` | Legacy |
| 581-601 | `cli_file_convert` | Convert, JsonText |

## nxt/nxt_io.py (2 of 5)

| lines | function | model |
|---|---|---|
| 39-50 | `register_reference_path_expander` | – |
| 53-112 | `load_file_data` | Disk, JsonText, Version |
| 115-149 | `save_file_data` | Disk, JsonText |
| 152-159 | `generate_temp_file` | – |
| 162-168 | `generate_temp_dir` | – |

## nxt/nxt_layer.py (54 of 69)

| lines | function | model |
|---|---|---|
| 84-93 | `SpecLayer.load_from_filepath` | Disk |
| 96-97 | `SpecLayer.load_from_layer_data` | Disk |
| 99-145 | `SpecLayer.__init__` | Children, Disk, Edit, Labels, LayerData, Overrides, Stage, SubLayers |
| 147-154 | `SpecLayer.get_cwd` | Edit |
| 156-175 | `SpecLayer._construct_node_specs` | Edit, LayerData, NodeData |
| 177-188 | `SpecLayer.refresh` | AttrSource, Edit |
| 190-192 | `SpecLayer.sort_node_table` | Edit |
| 194-195 | `SpecLayer.layer_idx` | – |
| 197-198 | `SpecLayer.lookup` | – |
| 200-201 | `SpecLayer.node_exists` | – |
| 203-211 | `SpecLayer.get_exec_in` | – |
| 213-214 | `SpecLayer.get_node_path` | Live, Resolve |
| 216-265 | `SpecLayer.ancestors` | Ancestors, Edit |
| 267-409 | `SpecLayer.children` | Ancestors, ChildCache, ChildOrder, Children, Composite, Duplicate, Proxies |
| 411-421 | `SpecLayer.get_cached_child_paths` | – |
| 423-454 | `SpecLayer.descendants` | ChildCache, Children |
| 456-464 | `SpecLayer._ordered_descendants` | Children |
| 466-496 | `SpecLayer._world_descendants` | Children, Composite, Disk, Setup, Start, Stash, Targets |
| 498-525 | `SpecLayer.add_child_to_child_cache` | ChildCache |
| 527-556 | `SpecLayer.remove_child_from_child_cache` | ChildCache |
| 558-566 | `SpecLayer.clear_node_child_cache` | ChildCache |
| 568-607 | `SpecLayer.get_exec_order` | Exec |
| 609-626 | `SpecLayer.get_root_exec_order` | Exec |
| 628-634 | `SpecLayer.get_muted` | Layer, Overrides |
| 636-637 | `SpecLayer.set_muted` | – |
| 639-644 | `SpecLayer.set_mute_over` | Layer, Overrides |
| 646-652 | `SpecLayer.get_soloed` | Layer, Overrides |
| 654-655 | `SpecLayer.set_soloed` | – |
| 657-662 | `SpecLayer.set_solo_over` | Layer, Overrides |
| 664-690 | `SpecLayer.add_reference` | SubLayers |
| 692-696 | `SpecLayer.get_references` | – |
| 698-723 | `SpecLayer._get_meta_attr` | Labels, Layer |
| 725-739 | `SpecLayer.get_alias` | Labels |
| 741-742 | `SpecLayer.set_alias` | – |
| 744-756 | `SpecLayer.set_alias_over` | Labels, Layer |
| 758-770 | `SpecLayer.get_color` | Labels |
| 772-784 | `SpecLayer.set_color_over` | Labels, Layer |
| 786-801 | `SpecLayer.get_locked` | Labels |
| 803-804 | `SpecLayer.set_locked` | – |
| 806-818 | `SpecLayer.set_locked_over` | Labels, Layer |
| 820-844 | `SpecLayer.save` | Disk |
| 846-865 | `SpecLayer.get_meta_data` | LayerData |
| 867-869 | `SpecLayer.get_comp_overrides` | Overrides |
| 871-890 | `SpecLayer.get_save_data` | LayerData, Overrides, Value |
| 892-915 | `SpecLayer.order_save_dict` | Layer |
| 917-926 | `SpecLayer.get_nodes_save_data` | LayerData |
| 928-932 | `SpecLayer.propegate_real_path` | Disk |
| 937-938 | `CompLayer.load_from_layer_data` | – |
| 940-951 | `CompLayer.__init__` | – |
| 953-954 | `CompLayer.layer_idx` | – |
| 956-973 | `CompLayer.get_node_dirties` | Dirty, Proxies |
| 977-981 | `CacheLayer.__init__` | Exec |
| 983-994 | `CacheLayer.was_during_node_exec` | Exec |
| 996-1003 | `CacheLayer.set_node_enter_time` | Exec |
| 1005-1018 | `CacheLayer.set_node_exit_time` | Exec |
| 1020-1026 | `CacheLayer.get_node_run_time` | Exec |
| 1028-1029 | `CacheLayer.lookup` | – |
| 1031-1035 | `CacheLayer.add_node` | Cache |
| 1037-1040 | `CacheLayer.save` | – |
| 1042-1049 | `CacheLayer.get_save_data` | Cache |
| 1052-1068 | `CacheLayer.load_from_layer_data` | Cache |
| 1071-1090 | `get_active_layers` | Layer, Overrides |
| 1093-1101 | `get_soloed_layers` | Layer |
| 1104-1112 | `get_muted_layers` | Overrides |
| 1115-1143 | `get_node_local_attr_names` | Attrs, Names |
| 1146-1153 | `get_comped_layer_overs` | Labels, Layer, Overrides |
| 1156-1162 | `get_root_parent` | Labels, Stage |
| 1165-1179 | `order_nodes_dict` | Layer |
| 1182-1224 | `sort_multidimensional_list` | Lists |

## nxt/nxt_log.py (7 of 21)

| lines | function | model |
|---|---|---|
| 63-69 | `NXTLogger.__init__` | – |
| 71-73 | `NXTLogger.socket` | – |
| 75-77 | `NXTLogger.execinfo` | – |
| 79-81 | `NXTLogger.grapherror` | – |
| 83-85 | `NXTLogger.compinfo` | – |
| 87-89 | `NXTLogger.nodeout` | – |
| 91-95 | `NXTLogger._log` | – |
| 101-149 | `track_log_file` | Remote |
| 152-173 | `initial_setup` | Logging |
| 176-213 | `set_verbosity` | Logging |
| 220-240 | `make_session_log` | Logging |
| 243-262 | `get_new_session_log_filename` | Logging |
| 265-275 | `stop_session_log` | Logging |
| 278-287 | `make_link` | – |
| 298-317 | `LogRecordStreamHandler.handle` | Remote |
| 319-320 | `LogRecordStreamHandler.un_pickle` | – |
| 322-334 | `LogRecordStreamHandler.handle_log_record` | – |
| 344-351 | `LogRecordSocketReceiver.__init__` | – |
| 353-362 | `LogRecordSocketReceiver.serve_until_stopped` | – |
| 368-380 | `startup_log_socket` | – |
| 383-386 | `shutdown_log_socket` | – |

## nxt/nxt_node.py (12 of 14)

| lines | function | model |
|---|---|---|
| 70-74 | `INTERNAL_ATTRS.as_save_key` | NodeData |
| 87-90 | `META_ATTRS.as_save_key` | NodeData |
| 101-162 | `create_spec_node` | Build, LayerData, NodeData, Proxies |
| 167-170 | `SpecNode.new` | Arcs, Increment, Inherit |
| 176-180 | `CompNode.new` | Inherit |
| 183-184 | `get_node_attr` | Cache, NodeData |
| 187-196 | `get_opinion` | – |
| 199-205 | `get_node_enabled` | Flow |
| 208-209 | `has_opinion` | Value |
| 212-236 | `has_stronger_opinion` | Comp, InstancePath |
| 239-284 | `get_node_as_dict` | Cache, NodeData |
| 287-307 | `_order_node_dict` | Layer, NodeData |
| 310-316 | `get_node_path` | – |
| 319-382 | `list_merger` | Lists |

## nxt/nxt_path.py (20 of 20)

| lines | function | model |
|---|---|---|
| 12-36 | `full_file_expand` | Contexts |
| 65-99 | `unify_env_vars` | FilePaths |
| 108-139 | `expand_relative_node_path` | Path |
| 142-164 | `path_attr_partition` | Path |
| 167-176 | `str_path_to_node_namespace` | Path |
| 179-182 | `node_namespace_to_str_path` | Path |
| 185-194 | `node_path_from_attr_path` | Path |
| 197-206 | `attr_name_from_attr_path` | Path |
| 209-220 | `node_name_from_node_path` | Path |
| 223-236 | `get_parent_path` | Path |
| 239-249 | `get_root_path` | Path |
| 252-260 | `is_attr_path` | Path |
| 263-273 | `make_attr_path` | Path |
| 276-291 | `join_node_paths` | Path |
| 294-315 | `replace_ancestor` | Path |
| 318-330 | `is_ancestor` | Path |
| 333-348 | `all_ancestor_paths` | Path |
| 351-353 | `_add_path_terminator` | Path |
| 356-367 | `get_path_depth` | Path |
| 370-389 | `trim_to_depth` | Path |

## nxt/plugin_loader.py (1 of 1)

| lines | function | model |
|---|---|---|
| 15-32 | `load_plugins` | Plugins |

## nxt/runtime.py (2 of 10)

| lines | function | model |
|---|---|---|
| 14-26 | `w` | – |
| 28-44 | `execute` | – |
| 47-60 | `Console.__init__` | – |
| 62-76 | `Console.runcode` | Nested |
| 79-90 | `get_traceback_lineno` | – |
| 94-105 | `GraphError.__init__` | Nested |
| 109-115 | `GraphSyntaxError.__init__` | – |
| 119-122 | `InvalidNodeError.__init__` | – |
| 126-127 | `ExitNode.__init__` | – |
| 131-133 | `ExitGraph.__init__` | – |

## nxt/session.py (18 of 21)

| lines | function | model |
|---|---|---|
| 25-28 | `Session.__init__` | Rpc |
| 31-32 | `Session.loaded_files` | – |
| 34-41 | `Session.new_file` | Session |
| 43-68 | `Session.get_unused_graph_name` | Names |
| 52-56 | `Session.get_unused_graph_name.test_name` | Names |
| 70-86 | `Session.load_file` | Session |
| 88-96 | `Session.unload_file` | Session |
| 98-125 | `Session.save_file` | Session |
| 127-128 | `Session.save_layer` | – |
| 130-144 | `Session.get_stage` | Session |
| 146-187 | `Session.execute_graph` | OneShot, Rpc |
| 189-197 | `Session.execute_nodes` | Rpc |
| 199-223 | `Session.start_rpc_if_needed` | Rpc |
| 225-242 | `Session._start_rpc_server` | Rpc |
| 244-258 | `Session.shutdown_rpc_server` | Rpc |
| 264-285 | `RPCServerProcess.__init__` | – |
| 288-305 | `RPCServerProcess.start` | Rpc |
| 307-348 | `RPCServerProcess.run` | Rpc |
| 350-368 | `RPCServerProcess.is_running` | Rpc |
| 370-395 | `RPCServerProcess.terminate` | Rpc |
| 398-408 | `RPCServerProcess.is_port_available` | Rpc |

## nxt/stage.py (112 of 130)

| lines | function | model |
|---|---|---|
| 60-96 | `CompArc.get_arc` | Arcs, Targeted |
| 99-119 | `CompArc.get_bases_arc_dict` | Arcs |
| 132-151 | `Stage.__init__` | Session |
| 154-160 | `Stage.next_node` | Ancestors |
| 163-169 | `Stage.prev_node` | Ancestors |
| 172-173 | `Stage.filepath` | – |
| 176-178 | `Stage.filepath` | – |
| 181-183 | `Stage._name` | Session |
| 186-187 | `Stage._name` | – |
| 190-191 | `Stage.loaded_files` | – |
| 194-196 | `Stage.reference_layers` | – |
| 199-202 | `Stage.top_layer` | – |
| 204-207 | `Stage.get_layer` | Labels |
| 209-272 | `Stage.new_sublayer` | SubLayers |
| 274-300 | `Stage.remove_sublayer` | SubLayers |
| 303-307 | `Stage.total_nodes` | – |
| 310-314 | `Stage.total_roots` | – |
| 317-328 | `Stage.check_for_layer_ref_cycle` | Stage |
| 331-333 | `Stage.load_from_filepath` | – |
| 335-375 | `Stage.load_from_file` | Stage |
| 377-379 | `Stage.get_layer_save_data` | – |
| 382-394 | `Stage.stash_node` | Stash |
| 396-407 | `Stage.get_stash_data` | Stash |
| 410-418 | `Stage.legalize_name` | Names |
| 420-467 | `Stage.get_unique_node_name` | Duplicate, Names |
| 469-510 | `Stage.get_unique_attr_name` | Names |
| 512-541 | `Stage.add_node_hierarchy` | Duplicate |
| 544-576 | `Stage.add_node_to_comp_layer` | Build, ChildCache, Edit, Increment, Proxies |
| 578-718 | `Stage.add_node` | AddTree, Duplicate, Edit, Increment |
| 720-788 | `Stage.duplicate_node` | Duplicate |
| 764-782 | `Stage.duplicate_node.dupe_descendants` | Duplicate |
| 790-955 | `Stage.delete_node` | Edit, Retract, Targeted |
| 958-985 | `Stage.remove_node_from_comp_layer` | ChildCache, Edit, Proxies, Retract |
| 987-1099 | `Stage.ripple_delete` | Retract |
| 1101-1227 | `Stage.parent_nodes` | Edit, Retract |
| 1229-1252 | `Stage.add_node_attr` | Attrs, Retract |
| 1254-1263 | `Stage.delete_node_attr` | Attrs, Retract |
| 1265-1280 | `Stage.rename_node_attr` | Attrs, Retract |
| 1282-1361 | `Stage.set_node_name` | Edit |
| 1363-1379 | `Stage.transfer_node_data` | Attrs |
| 1381-1404 | `Stage.set_node_data` | Attrs |
| 1406-1488 | `Stage.node_setattr_data` | Attrs, Retract |
| 1490-1549 | `Stage.set_node_instance_path` | InstancePath, Reinstance |
| 1552-1561 | `Stage.remove_node_instance` | InstancePath |
| 1563-1580 | `Stage.safe_get_node_instance` | Arcs |
| 1582-1585 | `Stage.node_setattr_comment` | – |
| 1587-1598 | `Stage.lookup_layer` | AttrSource |
| 1600-1606 | `Stage.get_node_source_layer` | AttrSource |
| 1609-1616 | `Stage.get_uncomped_opinion` | Opinions |
| 1619-1624 | `Stage.get_node_attr_comment` | AttrSource |
| 1626-1636 | `Stage.get_node_attr_names` | Opinions |
| 1638-1674 | `Stage.get_node_instanced_attr_names` | Opinions |
| 1676-1705 | `Stage.get_node_attr_value` | Attrs, Live, Resolve, Sources |
| 1708-1722 | `Stage.get_node_attr_source` | AttrSource |
| 1724-1747 | `Stage.get_node_attr_data` | AttrSource |
| 1749-1785 | `Stage.get_node_data` | Attrs |
| 1788-1816 | `Stage.get_tokens_from` | Sources |
| 1819-1839 | `Stage.next_token_partition` | Sources |
| 1842-1858 | `Stage.determine_token_type` | Resolve, Sources |
| 1860-1892 | `Stage.resolve` | Resolve |
| 1894-1937 | `Stage.resolve_attr_ref_token` | Resolve |
| 1939-1960 | `Stage.resolve_file_path_token` | Resolve |
| 1962-1980 | `Stage.resolve_file_token` | Resolve |
| 1982-2002 | `Stage.resolve_contents_token` | Resolve |
| 2004-2147 | `Stage.infer_lower_comp` | Infer |
| 2150-2192 | `Stage._check_if_inst_diverges` | Diverge |
| 2195-2210 | `Stage.get_specs_at_path` | Infer |
| 2212-2260 | `Stage.get_attr_as_real_data_type` | Flow, Live |
| 2262-2290 | `Stage.get_node_attr_external_sources` | Sources |
| 2292-2306 | `Stage.get_node_code_external_sources` | Sources |
| 2308-2325 | `Stage.get_node_code_string` | Code |
| 2327-2361 | `Stage.get_node_code` | Code, Nested |
| 2363-2383 | `Stage.get_node_code_lines` | Code |
| 2385-2429 | `Stage.set_node_code_lines` | Code |
| 2432-2433 | `Stage.clear_code_lines` | – |
| 2435-2436 | `Stage.get_node_local_attrs_data` | – |
| 2438-2512 | `Stage.create_instance_node` | Build, Proxies |
| 2515-2587 | `Stage.namespace_merger` | NamespaceMerge |
| 2589-2599 | `Stage.new_layer` | – |
| 2601-2605 | `Stage.register_layer` | SubLayers |
| 2607-2676 | `Stage.build_stage` | Build, BuildLayers, Inherit |
| 2678-2757 | `Stage.comp_pre_proxies` | Code, Comp, Inherit |
| 2759-2851 | `Stage.targeted_comp_pre_proxies` | Increment, Targeted |
| 2853-2988 | `Stage.targeted_comp_proxies` | Increment, Reinstance |
| 2990-3058 | `Stage.discover_proxies` | Build, Proxies |
| 3060-3101 | `Stage.comp_proxies` | Build, Proxies |
| 3103-3184 | `Stage.post_proxy_comp` | Code, Inherit |
| 3186-3233 | `Stage.targeted_comp_post_proxies` | Increment, Infer, Reinstance |
| 3235-3289 | `Stage.targeted_uncomp` | Reinstance |
| 3292-3321 | `Stage.instance_is_possible` | Proxies |
| 3324-3362 | `Stage.update_inherited_attrs` | Increment, Targeted |
| 3365-3369 | `Stage._add_base_class` | Mro |
| 3372-3381 | `Stage._replace_base_classes` | Reinstance |
| 3383-3387 | `Stage._update_base_classes` | – |
| 3389-3406 | `Stage._safe_mro_add_base_class` | Mro, Reinstance |
| 3408-3453 | `Stage.sort_instances` | Inherit, Proxies |
| 3456-3473 | `Stage.get_instance_sources` | Dirty, Inherit, Proxies |
| 3475-3487 | `Stage.get_instance_targets` | Targets |
| 3490-3506 | `Stage.extend_dirty_map` | Dirty |
| 3509-3517 | `Stage.remove_from_dirty_map` | Dirty |
| 3519-3546 | `Stage.get_layers_with_opinion` | Opinions |
| 3549-3563 | `Stage.assign_layer_parents` | SubLayers |
| 3565-3605 | `Stage.set_node_child_order` | ChildOrder |
| 3607-3639 | `Stage.propagate_child_order` | ChildOrder |
| 3642-3649 | `Stage.get_node_spec` | Arcs |
| 3652-3658 | `Stage.get_node_child_order` | – |
| 3660-3678 | `Stage.get_reverted_child_order` | ChildOrder |
| 3681-3686 | `Stage.get_top_node` | Ancestors |
| 3688-3717 | `Stage.get_node_inherited_attr_names` | Opinions |
| 3720-3733 | `Stage.get_node_comment` | NodeComment |
| 3736-3746 | `Stage.set_node_comment` | NodeComment |
| 3749-3756 | `Stage.node_attr_exists` | – |
| 3758-3791 | `Stage.execute` | Nested, Start |
| 3793-3847 | `Stage.execute_nodes` | Exec, Flow, Nested, Setup |
| 3849-3870 | `Stage.execute_custom_code` | Nested, Start |
| 3873-3877 | `Stage.get_node_exec_in` | NodeComment |
| 3880-3884 | `Stage.set_node_exec_in` | NodeComment |
| 3887-3922 | `Stage.set_node_enabled` | Code |
| 3925-3928 | `Stage.get_layer_start_nodes` | Start |
| 3930-3954 | `Stage.set_runtime_parameters` | Runtime, Setup |
| 3956-4013 | `Stage.setup_runtime_layer` | Nested, Setup, Start |
| 3986-3995 | `Stage.setup_runtime_layer.execute` | Nested, Setup, Start |
| 4015-4055 | `Stage.save_to_temp` | FilePaths |
| 4058-4122 | `run` | Flow, Nested, Runtime |
| 4125-4142 | `clean_globals` | Flow, Nested, Runtime |
| 4145-4150 | `determine_nxt_type` | Attrs, Flow |
| 4153-4170 | `w` | Quotes |
| 4173-4206 | `get_historical_opinions` | InstancePath, Opinions |
| 4209-4224 | `composite_lists` | Lists |
| 4227-4236 | `nxt_uuid` | – |

## nxt/tokens.py (6 of 6)

| lines | function | model |
|---|---|---|
| 18-36 | `register_token` | Plugins, Resolve |
| 52-62 | `get_token_content` | Tokens |
| 65-74 | `make_token_str` | Tokens |
| 77-135 | `get_standalone_tokens` | Tokens |
| 138-158 | `atomic_token_partition` | Tokens |
| 161-179 | `get_atomic_tokens` | Fallbacks, Sources, Tokens |

## nxt/plugins/example.py (0 of 2)

| lines | function | model |
|---|---|---|
| 6-7 | `detect_token_type` | – |
| 10-13 | `resolve_token` | – |

## nxt/plugins/file_fallbacks.py (13 of 13)

| lines | function | model |
|---|---|---|
| 27-28 | `detect_filepath_token` | Fallbacks |
| 31-32 | `detect_file_list_token` | Fallbacks |
| 35-60 | `resolve_filepath_token` | Plugins |
| 63-71 | `resolve_filelist_token` | Plugins |
| 74-82 | `resolve_file_list_token` | Plugins |
| 85-108 | `resolve_file_token_with_fallbacks` | FilePaths |
| 111-130 | `generate_historical_values` | FilePaths |
| 133-167 | `historical_resolve_file_ref` | Fallbacks |
| 170-224 | `historical_resolve_attr_ref` | Fallbacks |
| 227-234 | `iter_env_roots` | FilePaths |
| 237-253 | `file_root_fallback` | FilePaths |
| 266-267 | `detect_path_token` | Fallbacks |
| 270-280 | `resolve_path_token_in_roots` | Plugins |

## nxt/remote/__init__.py (1 of 2)

| lines | function | model |
|---|---|---|
| 9-26 | `get_running_server_address` | Contexts |
| 29-32 | `get_server_info_filepath` | – |

## nxt/remote/client.py (0 of 2)

| lines | function | model |
|---|---|---|
| 13-17 | `NxtClient.__init__` | – |
| 19-20 | `NxtClient.__repr__` | – |

## nxt/remote/contexts.py (4 of 5)

| lines | function | model |
|---|---|---|
| 17-32 | `RemoteContext.__init__` | Contexts |
| 44-57 | `register_context` | Contexts |
| 60-64 | `find_context_by_name` | Contexts |
| 67-69 | `iter_context_names` | Contexts |
| 77-80 | `get_current_context_exe_name` | – |

## nxt/remote/nxt_socket.py (17 of 21)

| lines | function | model |
|---|---|---|
| 41-52 | `setup` | – |
| 55-67 | `format_msg` | – |
| 70-80 | `get_nxt_model` | – |
| 85-94 | `SocketClientModel.__init__` | Socket |
| 96-108 | `SocketClientModel.load` | Socket |
| 110-131 | `SocketClientModel._run` | Socket |
| 133-144 | `SocketClientModel.run` | Socket |
| 146-156 | `SocketClientModel.refresh` | Socket |
| 158-171 | `SocketClientModel._rebuild_comp` | Socket |
| 173-188 | `SocketClientModel.close` | Socket |
| 190-207 | `SocketClientModel.open` | Socket |
| 209-217 | `SocketClientModel.ping` | Socket |
| 219-227 | `SocketClientModel.get_cache` | Socket |
| 230-238 | `send_log` | Socket |
| 241-264 | `send_to_server` | Remote, Socket |
| 271-274 | `IPCWait.__init__` | Socket |
| 276-294 | `IPCWait.send_wait_msg` | Socket |
| 296-297 | `IPCWait.__enter__` | Socket |
| 299-300 | `IPCWait.__exit__` | Socket |
| 307-308 | `NXTSocketLogHandler.__init__` | – |
| 310-311 | `NXTSocketLogHandler.emit` | Socket |

## nxt/remote/server.py (4 of 8)

| lines | function | model |
|---|---|---|
| 33-40 | `NxtServer.__init__` | – |
| 44-46 | `ServerFunctions.__init__` | – |
| 48-54 | `ServerFunctions.get_log_location` | – |
| 57-63 | `ServerFunctions.is_alive` | – |
| 66-152 | `ServerFunctions.exec_in_headless` | Contexts, OneShot |
| 154-172 | `ServerFunctions.kill` | Rpc |
| 175-184 | `secure_address` | Contexts |
| 187-199 | `run_server` | Contexts |
