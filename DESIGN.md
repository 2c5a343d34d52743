# Design: a Lean 4 model of nxt

The code under study is the Python package `nxt` in `/repo` (graph format 1.17, API 0.16.0).
It is read as text; it is never run.  `/verif/lean` holds a shallow functional model of parts of it
and kernel-checked theorems about the model.

## Layout

* `Verif/Model/*.lean`  – the model.  One Lean function per Python function, branch by branch,
  each with a comment giving file and lines, and the simplifications made.
* `Verif/Spec/*.lean`   – small independent specifications (relations, abstract functions) used in the statements.
* `Verif/Lemmas/*.lean` – helper lemmas.
* `Verif/Props/*.lean`  – one theorem (or a few) per property, each followed by a concrete example
  which meets the hypotheses.
* `MANIFEST.json`       – property -> theorem names.
* `COVERAGE.md`         – functions of the package -> model files.
* `seeded/LOG.jsonl`    – mutation log.

## Trusted base

* The Lean 4.33.0 kernel; the standard axioms `propext`, `Classical.choice`, `Quot.sound` at most.
  No axioms of our own, no `sorry`, no `native_decide`, no `bv_decide`.  `AXIOMS.md` lists the axioms of
  every property theorem.
* The reading of the Python source: the model is a transcription by hand.  Nothing mechanical ties
  the Lean functions to the Python text.
* Python semantics assumed: strings are `List Char` (sequences of code points); `str.partition`,
  `rpartition`, `split`, `join`, `replace`, `startswith`, `count`, slicing, `list.insert/remove/index`
  as in the Python reference, re-implemented in `Verif/Model/Py.lean`; dicts keep insertion order
  (`List (K × V)` with unique keys); integers are unbounded.
* Exceptions are values (`Except`).  A Python loop which need not stop is modelled with fuel, or as
  a relation; non-termination claims are stated as "no amount of fuel suffices".
* Composite nodes are Python classes.  `Verif/Model/Mro.lean` re-implements the C3 linearisation of the Python
  reference and the assignment of `__bases__` (a conflict or a class below itself raises `TypeError` and
  changes nothing).
* `is` on strings: for one-character strings CPython has one object per latin-1 character, so
  `x is '/'` is read as `x == '/'`.  For longer strings identity is a run-time accident: where the
  code relies on it the model takes the identity test as a parameter with the only assumption that
  identical strings are equal (and equality for length <= 1).

## Not modelled (anywhere)

`COVERAGE.md` lists every function of the package with the model files which cite it.  Beyond the functions without
model, these are left out: what user code does (only its effect on attribute tables, frames and globals, as an
arbitrary function), the operating system, sockets (only as byte sequences cut in arbitrary segments), time (as
arbitrary numbers), the text of log messages, the editor, Python 2 branches, pickling, fractional numbers in JSON text, class
machinery other than base classes and their order.

## Properties

Status: P = to be proved in full, partial = see note, F = the code violates the property, the
negation is proved with a witness and the true part is kept as `_partial`.

| id | modelled | how |
|----|----------|-----|
| C01 | tokens.py get_token_content, make_token_str | direct lemma about partition/rpartition |
| C02 | get_standalone_tokens as a fold with counters | loop invariant over the scan |
| C03 | same, filter | list lemma |
| C04 | atomic_token_partition | lemmas on partition/rpartition |
| C05 | get_atomic_tokens by well-founded recursion | functional induction; witness for incompleteness (F) |
| C06 | resolve, determine_token_type, resolve_attr_ref_token, file/path/contents tokens, get_node_attr_value over an abstract graph; fuel = recursion limit | scanner theorems C02; monotone in the limit |
| C07 | same | accessibility of the needs relation <=> enough fuel; loops => no limit suffices; syntactic forms for plain references |
| C08-C11, C13, C14 | nxt_path.py functions on List Char | induction on name lists |
| C12 | replace_ancestor | F: world ancestor and repeated text; partial otherwise |
| C15 | list_merger with index arithmetic | loop invariant |
| C16 | bubble sort as written | permutation/sorted/stable by invariants |
| C17 | composite_lists | loop invariant |
| C18, C19, C21 | name searches with fuel | pigeonhole on the finite set of taken names |
| C20 | legalize_name | induction on characters |
| C22, C23 | get_active_layers, get_comped_layer_overs | list induction |
| C24, C29 | dict ordering | permutation |
| C25 | get_node_as_dict / create_spec_node (tables) | equality up to dropped falsy values; the world node drops most internals |
| C26, C27 | version parsing, converter loop with fuel | case analysis, induction; divergence for newer minor (F) |
| C28 | arrange_node_data | invariants on the emitted list |
| C30-C32 | comp_pre_proxies over a list of layers | refinement to "first layer with an opinion" |
| C33, C34 | get_node_dirties, extend/remove_dirty_map | worklist invariant, reachability |
| C35 | get_instance_sources | measure on unseen nodes |
| C36, C37 | get_exec_order, get_root_exec_order | tree induction; divergence on cycles (F) |
| C38, C39 | execute_nodes, CacheLayer timings | induction over the node list / event list |
| C40, C41, C42 | run (effect as function), clean_globals, set_runtime_parameters | table lemmas |
| C43 | cli.execute parameter parsing | induction |
| C44, C45 | LogRecordStreamHandler.handle over segmented bytes, header format | framing invariant; F for short header |
| C46, C47 | children, descendants | filter lemmas, BFS invariant |
| C48, C49 | check_for_layer_ref_cycle, load_from_file | induction on chain / fuel; divergence (F) |
| C50 | generate_historical_values, file_root_fallback | list induction |
| C51 | track_log_file with abstract file system | induction |
| C52 | save_to_temp reference rewriting | F: skipped index; partial for fully qualified lists |
| C53 | unify_env_vars with both `findall` patterns and sequential replacement | pieces of text with a set of variables already replaced; F: texts between variables, prefixes |
| C54 | has_stronger_opinion | list induction |
| C55 | construction, add_node, delete_node, parent_nodes, set_node_name, comp layer add/remove on the tables of a layer (node objects are numbers) | invariant over edit histories; F: adding at a used path |
| C67 | parent_nodes, with its loop over a copy of the path table | loop invariant: the nodes still to come; F: orphans at the target, collapse data, world child order |
| C68 | set_node_name | refinement to moving the children one by one; F: nodes below missing children stay |
| C69 | delete_node without composite | loop over descendants (C47); F: missing nodes raise half way |
| C70–C74 | post_proxy_comp, _add_base_class, _safe_mro_add_base_class over classes with Python's C3 order | invariant over both arcs: the bases of done and other nodes; orders as a relation (`Lin`) independent of fuel; F: any cycle fails the whole composition |
| C75 | sort_instances (without deep_sort), get_instance_sources, overload loop of the instance arc | trace length decreases along sources; F: recorded source mixes layer and path |
| C76 | classes made from the layers of comp_pre_proxies | C70 with C30's stacks; shows the hypotheses of C70–C75 are met by any layers of spec nodes |
| C77 | same as C71 | the order of a plain node is the chain above it; it shares an end with any other order, so the merge has a common order; F: conflict of orders |
| C78 | sort_instances with deep_sort, instance_is_possible | positions under remove and insert; F: chains of relative instance paths |
| C79, C80, C82, C83 | discover_proxies, create_instance_node, comp_proxies; children as an oracle with the specification of C46 | invariant `Good` against an inductive closure (`Made`); termination by counting; exact result for separate instances (`C80_plain`); F: overrides, chains, overwritten instance paths |
| C84 | same, child orders | second invariant (`Ords`) with monotone orders over the rounds |
| C85–C87 | add_node_attr, delete_node_attr, rename_node_attr (`Model/Attrs`) | a node as a table of fields (`look`), field names do not clash (`slot_inj`); F: muted layers, own name, class attributes |
| C88, C89 | node_setattr_data for user attributes; get_node_data, set_node_data, transfer_node_data for user attributes | induction over the data and over the names; F: creating with illegal names or empty texts, falsy values |
| C90–C92 | remove_sublayer, new_sublayer for layer data without references, register_layer, assign_layer_parents, add_reference | invariant on what a removal may touch; weight of references for termination; F: every second sub layer stays, off by one for layers above, real path against file path |
| C93–C95 | set_node_child_order, propagate_child_order, get_reverted_child_order, ordering in children (by names) | induction over the merged orders, against composedOrder which compNode is proved to give; F: stronger layers ignored, merging not associative, names doubled or lost in dependents, revert keeps edits |
| C96–C99 | CompArc.get_arc, targeted_comp_pre_proxies (reference arc), update_inherited_attrs, the composite part of delete_node for a node which stays | induction over the bases, against strongest opinion (C30) and first giver; F: specs lost below proxies, instance arc for implied parents, stale sources, weaker order wins |
| C100–C103 | get_node_code_lines, get_node_code_string, get_node_code (line numbers), set_node_code_lines, clear_code_lines, set_node_enabled | code lists with addresses; the loop over the dependents as a prefix up to the first which ends it; against composedCode/composedState; F: wrong line for custom code, loop ends early, stronger layers ignored, instance code hides layers, dependents overwritten |
| C104–C106 | get_node_attr_names, get_node_instanced_attr_names, get_node_inherited_attr_names, get_layers_with_opinion, get_uncomped_opinion, get_historical_opinions, get_opinion | names against the classes a node inherits from (dir by resolution order); loop invariant for the history; F: local names listed as instanced, number of calls exponential in depth, first inherited opinion dropped |
| C107 | layer as dict of attribute tables; `create_spec_node` and `get_node_as_dict` as in C25, names as in C18, composition as an oracle | invariant over the copies made, recursion on depth; round trip of C25 for each node; F: instances, gaps, names, other layers |
| C108 | same | invariant over the loop; F: a parent given |
| C109 | get_tokens_from, external sources over the graph of C66 | atomic tokens of flat texts (C05), expansion of `path.attr` against expansion of `path`; completeness against `Needs` of C07; F: kinds, dots, nesting, `self` |
| C110 | File tokens at a depth of the layers: references replaced by the values they name there, recursively, in any order of tokens; agreement with `resolve` | `C110_recalled_partial`, `C110_agrees_partial`, `C110_file`, `C110_*_violation` (Props/Fallbacks.lean) | partial: tokens not nested, no special kinds, replacements without openers; references in values must be written from the root on for the agreement |
| C111 | After any sequence of `add_node` calls the composite layer agrees, for nodes and user attributes, with a fresh composition of the resulting layers; enabled state, comment and code of a new node are its own or none | `C111_history_partial`, `C111_recomposed_partial`, `C111_made_partial`, `C111_others`, `C111_settings_partial`, `C111_opinions_partial`, `C111_made_opinions_partial`, `C111_listed`, `C111_*_violation` (Props/Increment.lean, Props/IncrementSettings.lean) | partial: no instances; a new path must be a leaf (else `C111_gap_violation`), settings need a real parent (else `C111_settings_violation`) |
| C112 | After any history of `add_node`, attribute functions on specs and `delete_node` the composite layer agrees with a fresh composition of the resulting layers | `C112_history_partial`, `C112_recomposed_partial`, `C112_opinions_partial`, `C112_functions`, `C112_orphan_violation` (Props/Retract.lean, Props/RetractSettings.lean) | partial: no instances; the last spec of a node is deleted only if nothing is below it (else `C112_orphan_violation`); settings need real parents |
| C113 | After any execution the cache layer, saved and loaded, has a node for each node run with the code text it ran and the user attributes of its frame | `C113_cache_partial`, `C113_world_violation`, `C113_inherited_violation` (Props/Cache.lean) | partial: falsy values (0, False, empty text) and values which JSON refuses come back as `None`; the world loses its code and the attributes it has from its specs |
| C114 | Nodes inferred from the layers below the display layer have the values of the layers there | `C114_lower_partial`, `C114_none`, `C114_as_composed_partial`, `C114_strongest`, `C114_code_violation`, `C114_instance_violation` (Props/Infer) | partial: without instances followed; internal attributes and instance paths are read from the strongest spec only, shown as violations |
| C115 | After setting or clearing an instance path the composite node has the path its layers give | `C115_layers`, `C115_set_partial`, `C115_clear_partial`, `C115_stronger_partial`, `C115_overruled_violation`, `C115_weaker_violation`, `C115_relative_violation`, `C115_silent_violation`, `C115_twice_violation` (Props/InstancePath) | partial: no stronger layer with a path from the root on, cleared paths from the root on; the other cases are violations; only the path and its source, not bases and proxies |
| C116 | During an execution a node sees what the first class in its resolution order has, with the values last pushed back | `C116_flow_partial`, `C116_ran`, `C116_untouched`, `C116_composed`, `C116_commute`, `C116_text_violation`, `C116_new_violation`, `C116_equal_violation`, `C116_deleted_violation` (Props/Flow) | partial: code which deletes no attribute; texts, new attributes and equal values of other types are violations; the code works on its frame and the globals only |
| C117 | Executing a stage runs, from the start node on, exactly the live nodes of the chain of roots, each once and after those above it | `C117_root`, `C117_inside_partial`, `C117_missing`, `C117_first`, `C117_index_violation`, `C117_cycle_violation`, `C117_world`, `C117_helper`, `C117_helper_other`, `C117_helper_start`, `C117_custom`, `C117_custom_closed` (Props/Start) | partial: roots without cycle; inside a root which is switched off nodes run all the same; an index as start is ignored; the runtime layer has the nodes and enabled values of the layer given |
| C118 | graph files on disk: what is written is read again, nothing else is touched | `C118_round_trip`, `C118_layer_round_trip_partial`, `C118_text_round_trip_partial` (Props/JsonText), `C118_refused`, `C118_others`, `C118_where`, `C118_which_file`, `C118_not_loaded`, `C118_not_saved`, `C118_save_as`, `C118_binary_violation`, `C118_lost_violation`, `C118_tuple_violation`, `C118_stale_violation` (Props/Disk) | partial: mute, solo and lock are lost (C57); the binary format cannot be read, failed writes destroy the file, and a layer saved under another name keeps naming the old file in the world node and in the sources of attributes. The text is C158; errors of the operating system are not modelled |
| C119 | the table of a session holds what was made and not unloaded; lookups by path; naming; saving | `C119_registry_partial`, `C119_unload`, `C119_stage`, `C119_load_error`, `C119_load`, `C119_names_violation`, `C119_save_violation`, `C119_filepath_violation`, `C119_reload_violation`, `C119_untitled_violation`, `C119_clock_violation` (Props/Session.lean) | partial: the table is right for strictly increasing clock readings; lookup by path, unused names and saving are violated by the code |
| C120 | the rpc server an execution starts is there while the graph runs and gone afterwards; other servers are left alone | `C120_started`, `C120_borrowed`, `C120_unneeded`, `C120_embedded`, `C120_foreign`, `C120_port`, `C120_balanced_partial`, `C120_late_violation`, `C120_dead_violation`, `C120_lost_violation`, `C120_stopped_violation`, `C120_other_killed_violation`, `C120_build_violation`, `C120_verbose_violation` (Props/Rpc.lean) | partial: holds for sessions holding no server at first, servers up within four seconds and stages which build; violated otherwise |
| C121 | contexts are found by name; the command line of a remote call is read back as meant; new contexts are usable | `C121_find`, `C121_register`, `C121_call`, `C121_call_args_partial`, `C121_refused`, `C121_create`, `C121_create_refused`, `C121_empty`, `C121_relpath`, `C121_shadowed_violation`, `C121_start_violation`, `C121_relative_violation`, `C121_graph_violation` (Props/Contexts.lean) | partial: start nodes are lost for contexts with arguments of their own, relative paths and given context graphs are looked for in the server's directory, a name taken shadows |
| C122 | the port recorded by the server is the one read by clients | `C122_address`, `C122_default`, `C122_host_violation` (Props/Contexts.lean) | partial: the recorded host is not read |
| C123 | A verbosity shows what it says; a session log is written while open | `C123_session_partial`, `C123_shared_violation`, `C123_stacked_violation`, `C123_first_partial`, `C123_env`, `C123_env_violation`, `C123_sockets` (Logging) | partial: `verbose_handler` is never assigned by `set_verbosity`, so handlers stack and are never removed; with the environment variable off or low is for good; two logs under one name leak a handler |
| C124 | changing the instance path of a node gives the bases of composing anew | `C124_stands_partial`, `C124_change_partial`, `C124_fails_violation`, `C124_lost_violation`, `C124_dependants_violation`, `C124_world_violation` (Props/Reinstance.lean) | partial: for sources which are plain and have nothing below them; for others the code fails or leaves other bases (violations) |
| C125 | Errors in node code are located | `C125_located_partial`, `C125_syntax`, `C125_own_partial`, `C125_path_violation`, `C125_nested_violation`, `C125_custom_violation` (Nested) | partial: holds for nodes which have executed no other node; fails after `execute` in node code and for custom code |
| C126 | Node code which executes other nodes | `C126_frames`, `C126_brackets`, `C126_abort_partial`, `C126_times`, `C126_alone`, `C126_caller_partial`, `C126_running_partial`, `C126_self_violation`, `C126_reentry_violation`, `C126_running_violation`, `C126_interrupt_violation`, `C126_globals_violation` (Nested) | partial: order, nesting, ending, times and the frame of the caller are right; `self`, variables and the running mark are not given back to the caller, a running node can not be executed |
| C127 | the order of nodes within a layer does not influence the composition | `C127_opinions_partial`, `C127_composed_partial`, `C127_plain`, `C127_success_violation` (InheritOrder) | partial: values, nodes and what each takes from are independent of the order whenever both orders compose; whether it composes does depend on the order (violation). For stages whose instance sources are plain everything is proved |
| C128 | a stage saved and opened again composes to the same | `C128_reopens`, `C128_attributes_partial`, `C128_composed_partial`, `C128_plain`, `C128_success_violation` (Reopen) | partial: goes through saving (C24, C25), loading (C57, C59), layering (C11), and inheritance (C70–C77, C127) at once; whenever both compositions succeed, nodes, sources and values agree (values as far as saved), and they always succeed if what is instanced is plain; in general the opened stage can fail to compose. The world's instance path and enabled state are not saved and are excluded. |
| C129 | diverging instances are reported | `C129_reported_partial`, `C129_silent_partial`, `C129_self_violation`, `C129_relative_violation` (Diverge) | partial: the node itself is never looked at, and relative instance paths always count as diverging. |
| C130 | the server waits exactly while a socket command is processed | `C130_released`, `C130_covered_partial`, `C130_run_violation`, `C130_answer_violation`, `C130_handlers`, `C130_log_violation` (Socket) | partial: running a stage whose runtime layer is missing executes nodes after the server was released; without an answer of the server work is done uncovered; logging an error after a stale socket never ends. |
| C131 | plugins are loaded once, the user's first, and their tokens found in that order | `C131_loaded`, `C131_raises`, `C131_again`, `C131_tokens`, `C131_list`, `C131_path`, `C131_path_layer`, `C131_path_violation` (Plugins) | partial: a path token looks only at the first file root. |
| C132 | Opposite edits of a layer cancel: rename and rename back, move and move back, add and delete, delete and add | `C132_rename_back_partial`, `C132_rename_order`, `C132_parent_back`, `C132_parent_order_violation`, `C132_add_delete`, `C132_delete_add` (`Props/EditBack.lean`) | partial: the rename needs that no ancestor is missing below the node (see C68); a move and the move back restore all paths but put the node last in the child order of its parent, which is the execution order (`C132_parent_order_violation`, for every such node); what `delete` and `add` do with the child order of the parent is not claimed here |
| C133 | Merging namespaces keeps the target and appends what it lacks of the source | `C133_short`, `C133_single`, `C133_long`, `C133_prefix_violation`, `C133_even_same`, `C133_even`, `C133_even_violation`, `C133_joins`, `C133_single_violation`, `C133_empty` (`Props/NamespaceMerge.lean`) | partial: closed forms for all pairs but those of `C133_even_violation`, where just the beginning of the result is given; a source which begins with the target and goes on (`C133_prefix_violation`), a source of a single name against a single name, and namespaces of equal length where the loop is not left (`C133_even_violation`) do not give what is claimed |
| C134 | The ancestors of a node are the nodes at the proper prefixes of its path, nearest first | `C134_ancestors`, `C134_paths`, `C134_any`, `C134_missing`, `C134_top_violation`, `C134_names_violation` (`Props/Ancestors.lean`) | partial: `get_top_node` gives the nearest ancestor (`C134_top_violation`), and the return type NameDict names the wrong nodes (`C134_names_violation`) |
| C135 | The execution cursor moves to the next and the previous node of the order | `C135_next`, `C135_prev_partial`, `C135_first_violation`, `C135_twice_violation`, `C135_outside` (`Props/Ancestors.lean`) | partial: the first node of the order is never a previous node; a node which comes twice in the order (see C37) is always left towards its first successor |
| C136 | Converting a whole file keeps its data and is stable; on the command line only the named file changes | `C136_steps`, `C136_keeps_partial`, `C136_again`, `C136_before_110`, `C136_beside`, `C136_replaced`, `C136_no_dot_violation`, `C136_newer_violation`, `C136_no_version_violation`, `C136_labels` (Convert), `C136_old`, `C136_old_again`, `C136_115` (ConvertOld) | partial: the versions up to 1.9, 1.10 to 1.14 and 1.15 end to end; pre-release files in C155; with `replace` a file name without a dot, a newer version and a missing version violate the claim |
| C137 | the order of execution does not depend on the order of the nodes in a layer | C137_order_partial, C137_execute_partial, C137_start_partial, C137_two_next_violation, C137_unlisted_violation, C137_two_starts_violation (Props/ExecSame.lean) | partial: needs complete child orders, at most one root after each root and at most one start point; without these the order of the layer decides |
| C138 | a graph saved and opened again executes the same nodes in the same order | C138_tidy, C138_order_partial, C138_execute_partial, C138_plain, C138_two_next_violation (Props/ExecReopen.lean) | partial: joins C25, C57, C59, C70–C75, C128 and C137; needs that both compose (true if sources are plain) and no two roots after the same one; the violation is a tidy graph which executes another node after being saved and opened. Graphs without proxies |
| C139 | mute and solo overrides of a whole stage | C139_loaded, C139_kept, C139_below, C139_other_paths, C139_other_state_partial, C139_beside_partial, C139_mute_active_partial, C139_solo_active_partial, C139_baked, C139_reopened_partial, C139_own_state_lost_violation, C139_beside_violation, C139_baked_violation, C139_solo_lost_violation (Props/Overrides.lean) | partial: the override dicts are objects in a heap, as they are shared and changed in place; the partial statements name when an entry exists already, the violations show the other cases |
| C140 | a graph saved and opened again computes the same | C140_computes_partial, C140_plain, C140_falsy_violation (Props/FlowReopen.lean) | partial: values must be such as a file can hold (`C140_falsy_violation`), both graphs must compose (shown in `C140_plain` when what is instanced is plain), code deletes no attribute of its frame; texts and code are taken to resolve to the same when the stages look alike by path (`SameTexts`), and code to depend on lookups only (`LookupOnly`) |
| C141 | A runtime layer starts with its parameters, its paths and the globals of the world's code, and nodes add only the globals they declare | `C141_run`, `C141_names_partial`, `C141_kept`, `C141_tables_partial`, `C141_new_partial`, `C141_exit_violation`, `C141_world_param_violation` (Props/Setup) | partial: the code violates it when the world's code raises `ExitNode` and for parameters of a world no layer has; a mention after `global ` need not be a declaration (C41) |
| C142 | During an execution references are read with the values of the moment | `C142_reads_partial`, `C142_passes_partial`, `C142_none_violation` (Props/Live.lean) | partial: joins the executor (`Model/Flow`) with the resolver (`Model/Resolve`); texts made of unnested attribute references whose values have no references themselves; `None` arrives as the empty text |
| C143 | a stage with separate instances composed from beginning to end: its nodes and values in closed form | `C143_composed`, `C143_alike_partial`, `C143_shadow_violation` (Props/Build) | partial: the closed form is proved for all layers with separate instances (nodes kept below an instance are covered when they have no instance path and what they stand for has no nodes below it); a copy has the attributes of what it copies only when nothing above the copy, and not above the original, has them |
| C144 | which layers a build takes, and what muted ones leave behind | `C144_taken`, `C144_mute_partial`, `C144_muted_violation`, `C144_cwd_violation`, `C144_refused`, `C144_world`, `C144_world_taken` (Props/BuildLayers) | partial: the nodes are those of the contributing layers alone; positions and collapse states of muted layers, and of layers above `from_idx`, stay in the composite layer |
| C145 | A stage with instances composes to the same nodes and values whatever order its layers keep their nodes in, and again after being saved and opened | `C145_order`, `C145_reopened_partial` (Props/BuildReopen.lean) | partial: instances whose trees are separate, as in C143; a file does not keep every value (C25), nor an instance path or the enabled state of the world |
| C146 | The source of every user attribute in a composed stage names the layer and the path where its value stands, and can be followed | `C146_made`, `C146_refreshed`, `C146_source`, `C146_followed`, `C146_data`, `C146_meta_partial`, `C146_saved_violation`, `C146_muted_violation`, `C146_twice_violation`, `C146_comment_violation`, `C146_name_violation` (Props/AttrSource.lean) | partial: layers as `refresh` leaves them, instances whose trees are separate as in C143, no file in two layers; a save under another name and a change on a muted layer leave old sources |
| C147 | Values edited in a composed stage with instances are those which composing the edited layers anew gives | `C147_recomposed_partial`, `C147_followed_partial`, `C147_signed`, `C147_shown`, `C147_comment_violation` (Props/Revalue.lean) | partial: histories of attribute edits only, instances whose trees are separate as in C143; comments of nodes are not brought to instances |
| C148 | An instance executes the copies of what its source executes, in the same order | `C148_children`, `C148_descendants_partial`, `C148_executes_partial`, `C148_order_violation` (Props/BuildExec.lean), `C15_part` (Props/ListsOrder.lean) | partial: children shown are proved for every instance; the same order of execution only for an instance no layer puts nodes below, root to root with nothing executed after them; with own nodes the order may differ (`C148_order_violation`) |
| C149 | A stage with instances which is saved and opened again executes the same nodes in the same order | `C149_order_partial`, `C149_execute_partial` (Props/BuildExec.lean) | partial: as C138, if no two nodes execute after the same root and there is one start point; child orders without names of nodes which are gone; instances whose trees are separate as in C143 |
| C150 | A stage with instances which is saved and opened again computes the same values | `C150_computes_partial` (Props/BuildFlow.lean) | partial: as C140 for values a file can hold and as C149 for the order; instances whose trees are separate as in C143 |
| C151 | During an execution a text reads as what the values of the moment make of it, through chains of references | `C151_unique`, `C151_reads_partial`, `C151_passes_partial` (Props/LiveChain.lean) | partial: references followed from node to node, references put together from references, paths, colours, files and contents; not tokens whose text stands inside another one, `$${`, values with `${` left in them (all C66), tokens of plugins, attributes of the system |
| C152 | Behind a composed node stand, in this order, its specs, its parent and the node it stands for; its spec is that of the strongest layer and its instance the node it stands for | `C152_arcs_partial`, `C152_spec`, `C152_instance_partial`, `C152_layer` (Props/Arcs.lean) | partial: stages with instances whose parents are all given (`Tidy`, `Separate`); fails for implied parents (`C152_implied_violation`) and for refused instance paths (`C152_refused_violation`) |
| C153 | The instances found for a node are exactly the nodes which stand for it, each once and after the node it names; in a composed stage, the nodes made from it | `C153_targets_partial`, `C153_composed_partial` (Props/Targets.lean) | partial: the node must not stand for itself, else no depth of calls is enough (`C153_loop_violation`); a refused instance path still counts (`C153_refused_violation`) |
| C154 | Adding a node with the data of its children adds exactly that tree: the paths, the order reported, the values a file would give, the child orders; with names taken, the same tree under free proper names | `C154_tree_partial`, `C154_renamed`, `C154_unnamed` (Props/AddTree.lean) | partial: names distinct among siblings and free are needed for the tree to keep its names; without `fix_names` two children of one name leave one node (`C154_twins_violation`) and a node which is there is replaced (`C154_replaced_violation`); without a composite |
| C155 | A pre-release file keeps its tree of nodes through the whole conversion: every listed node at its path with what it says, no other node, the rest of the file kept | `C155_unpacked`, `C155_whole`, `C155_refused`, `C155_no_data_violation`, `C155_unlisted_violation` (Props/PreRelease.lean) | partial: sibling names distinct and without a slash, no `nodes` entry of its own; nodes not listed by a parent with data are left out (`C155_unlisted_violation`), a file without `data` raises (`C155_no_data_violation`), the widget type is lost |
| C156 | what each command of the command line does | `C156_exec`, `C156_convert`, `C156_one`, `C156_asked_partial`, `C156_old`, `C156_others`, `C156_empty`, `C156_files`, `C156_unknown_words`, `C156_verbose`, `C156_quiet`, `C156_gui_violation`, `C156_legacy_verb_violation`, `C156_replace_violation`, `C156_verbose_violation` (Props/Commands.lean) | partial: argparse itself is not modelled; F: `-gui`, `legacy`, the value of `-r`, `-v` of the old style |
| C157 | aliases, colours and locks of the layers of a whole stage | `C157_alias_seen`, `C157_color_seen`, `C157_lock_seen`, `C157_local`, `C157_alias_set`, `C157_color_set`, `C157_lock_set`, `C157_clear_partial`, `C157_top`, `C157_find`, `C157_find_set`, `C157_kept_violation`, `C157_locked_violation` (Props/Labels.lean) | partial: taking an override away leaves entries of layers between (`C157_kept_violation`) and locks of layers without colour (`C157_locked_violation`) |
| C158 | the text of graph files: what is written is read back, in ASCII, and no part of it is read as a whole file | `C158_read_back`, `C158_same_text`, `C158_ascii`, `C158_disk`, `C158_cut`, `C158_unfinished`, `C158_saved`, `C158_stopped`, `C158_file_read_back`, `C158_layer_saved`, `C158_one_place` | proved; whole numbers only, the writer and reader are those of Python's json package |
| C159 | which texts are graph files: the reader against a grammar of JSON | `C159_exact`, `C159_one_meaning`, `C159_written`, `C159_files`, `C159_layout`, `C159_reformatted` (Props/JsonGrammar.lean) | proved: soundness by induction on the fuel of the reader, completeness by induction on the grammar; fractions, exponents and lone surrogates are left out of both |
| C160 | keys written twice in the text of a graph file, at any depth: the last entry counts, keys stay where they first come | `C160_last`, `C160_order`, `C160_ignored`, `C160_lost_violation` | proved; nothing is said of the earlier entries, see Findings |
| C161 | `execute_graph` of the package: where a graph is run, and which contexts are refused | `C161_refused`, `C161_served_partial`, `C161_unshared_violation`, `C161_empty_violation` (Model/OneShot.lean) | partial; the server answers when its contexts include those of the caller |
| C162 | the helper `w` of node code: when a text in quotes is a literal of the text | `C162_one_meaning`, `C162_short`, `C162_long`, `C162_taken`, `C162_documented_violation` (Model/Quotes.lean) | partial; numbers are off by one against the documentation, texts with marks or backslashes are not escaped |
| C163 | after registering a layer every layer records its place | `C163_place`, `C163_exact`, `C163_loaded`, `C163_behind_violation`, `C163_shared_violation`, `C163_slice_violation` (Model/SubLayers.lean) | partial; holds just for layers registered at the end |
| C164 | `stash_node`, `get_stash_data`: the attributes of all nodes as plain data | `C164_node`, `C164_order`, `C164_layer_partial`, `C164_values`, `C164_identity_violation` (Model/Stash.lean) | partial; needs that the path of the world is the object `WORLD` |
| C81 | same | completeness for calm starts gives non-termination when the closure is infinite; F |
| C56, C58 | override setters of nxt_layer.py on the top layer's tables | table lemmas; F: lock removal tests the colour table; F: a new mute entry hides a lower solo |
| C57 | SpecLayer.__init__, get_save_data | round trip; F for mute/solo/lock |
| C59 | _construct_node_specs with add_child linking | invariant over the loading loop |
| C60, C63 | V1 unpack_node_data, drop_nodes | tree induction; deletion as a filter. Only the node itself is dropped, its descendants stay (`C63_orphans`) |
| C61 | deep_order, V114 converter | induction on the document |
| C62 | V109 update_refs | induction on the list of references |
| C65 | get_root_parent | induction on the chain |
| C66 | same as C06 | gaps and tokens with a set of tokens already replaced; F: nested, sequential, protected |
| C64 | child cache: query, add, remove, clear | invariant over histories; F: adding below an uncached parent |

## Findings

Places where the code does not do what the property says; each is a theorem with a witness.

* C05: `get_atomic_tokens` misses tokens left of a nested one.
* C10: the world path is its own ancestor (`C10_world_reflexive`).
* C12: `replace_ancestor` with the world as old ancestor.
* C13: expanding a relative path which leaves the root, or starts at the world.
* C15: `list_merger` keeps the base order only, not the overlay order (`C15_overlay_order_lost`).
* C19: names ending in `__nxt` (`C19_meta_suffix_violation`).
* C21: a free empty name is never accepted (`C21_empty_name_diverges`).
* C23: a top-most override entry with one of the states hides the other state below (`C23_partial_entry_violation`).
* C25: falsy values are not saved; the world keeps only comment and code.
* C26: a negative major version with a fitting minor passes as an old file (`C26_negative_major_violation`).
* C27: `cli_file_convert` on a file newer than the release never stops (`C27_newer_diverges_violation`).
* C28: with a world node in the file, grandchildren of the root come before children (`C28_world_violation`).
* C29: an unknown entry of a node is lost (`C29_unknown_node_key_lost`).
* C56: removing a lock tests the colour table.
* C57: mute, solo and lock do not come back from a saved layer.
* C58: a new mute entry on the top layer hides a lower solo.
* C63: dropping a node leaves its descendants without parent.
* C32: the composite child order of the world is that of its weakest layer alone (`C32_world_violation`).
* C33: the doc string of `get_node_dirties` says the path itself comes first; it is not in the result (`C33_not_reflexive`).
* C34: `extend_dirty_map` compares by identity, so equal paths in two objects make a node its own dependant (`C34_identity_violation`).
* C54: on a composite node the stronger-opinion test never says yes, whatever layer is asked about (`C54_never_violation`).
* C46: the world is reported as an implied child of itself (`C46_world_violation`); an ordered node table lists the children twice (`C46_table_violation`); the scan for children compares parent paths by identity (`C46_identity_violation`).
* C47: descendants asked for as nodes are the direct children only (`C47_node_type_violation`).
* C64: adding a node below a parent which is not cached hides its other children (`C64_lost_children_violation`); asking for descendants as a table writes into the cached table of children (`C64_table_alias_violation`).
* C36: a start node below a disabled root runs, though the same root started from its top runs nothing (`C36_disabled_root_violation`); a start node whose root is missing is an attribute error (`C36_missing_root`), one below another missing node gives an empty order (`C36_unlisted_start`).
* C37: a cycle of `execute_in` links never ends (`C37_cycle_violation`).
* C38, C39: executing a node from inside its own run ends in a type error, as the inner exit closes the outer run (`C38_reentry_violation`, `C39_nested_violation`); an exit for a path never entered is a `KeyError`, where the code expects `IndexError` (`C39_unmatched`).
* C40: if the code deletes an attribute of `self`, later changes are not pushed back and the outcome (also an exit) becomes an attribute error (`C40_deleted_violation`).
* C41: `global a, b` keeps only `a` (`C41_second_name_violation`); prefixes of declared names and names in indented comments are kept (`C41_undeclared_violation`).
* C42: a parameter naming an existing node but no attribute makes the call fail instead of being skipped (`C42_no_attr_violation`).
* C44: a header which arrives in two pieces ends the handler, this record and all later ones are lost (`C44_split_header_violation`); a peer closing inside a body leaves it spinning for ever (`C44_closed_violation`).
* C45: on Python 3 `bytes(text)` without encoding raises `TypeError`, so nothing is ever sent; from 10^10 bytes on the header is too long (`C45_long_violation`).
* C51: a log file deleted for its age stays in the list until the next call (one entry, `C51_list`).
* C48, C49: `load_from_file` never asks `check_for_layer_ref_cycle`; files referencing each other are loaded for ever (`C49_cycle`).  After an exception other than `IOError` the working directory is that of the referring file (`C49_cwd_violation`).
* C52: `idx` is not advanced for a reference which is bare already, so later base names go to the wrong places (`C52_bare_violation`); layers and overrides with one base name overwrite each other (`C52_clash_violation`, `C52_files`).
* C53: `$A/$AB` becomes `%A%/%A%B` on Windows (`C53_prefix_violation`); on Linux text between two variables can be taken for one (`C53_between_violation`), `%%` becomes `$` (`C53_percent_violation`).
* C06: `${}` is replaced by the text `BADRESOLVE`.  Simplification: a plugin token's resolver does not call back into the stage.
* C66: a token which also occurs inside another token of the text is replaced there too, and the outer token is then not found and stays unresolved (`C66_nested_violation`); a replacement containing the text of a later token is replaced again (`C66_sequential_violation`); `${_enabled}` on a disabled node is a type error (`C66_protected_violation`).
* C55: adding a node at a used path leaves the other node in the node to path table and in the node table (`C55_overwrite_violation`); `set_node_name` with `force` does the same.
* C67: `get_unique_node_name` looks at the new path only, not below it; an orphan there is overwritten (`C67_orphan_violation`).  Collapse data of nodes below stay behind (`C67_collapse_violation`), a top node stays in the child order of the world node (`C67_world_order_violation`).
* C68: nodes below a child which is missing in the layer keep their old path (`C68_gap_violation`); giving a node the name it has gives it another name (`C68_own_name_violation`).
* C69: deleting with descendants raises `ValueError` half way when a path below is missing in the layer, and leaves the node table broken (`C69_gap_violation`).
* C67: when the parent of a moved node is missing, its name goes from the child order of the nearest ancestor although other nodes stay below it (`C67_order_orphan_violation`); moving a node to where it is raises (`C67_same_place_violation`).
* C74: a self instance, two nodes instancing each other, or an instance of one's own descendant make the whole composition fail (`comp_layer.failure`), although `discover_proxies` only logs the attempt and `instance_is_possible` is not asked by `post_proxy_comp`.
* C75: the recorded source of enabled, comment or code of an instance is the layer of the instance source with the path of the instance, where that layer need not have a node (`C75_source_violation`).
* C77: a graph without cycles may have no common resolution order; the assignment of bases then raises `TypeError` and the whole composition fails (`C77_conflict_violation`).
* C78: with relative instance paths a source can be placed after its instance, against the comment of `sort_instances` (`C78_deep_violation`).
* C80: a node which is there from the start below an instance gets its instance path in the last round only, and the nodes below are not made (`C80_override_violation`); one more proxy elsewhere and they are.  When there is nothing below what it stands for, nothing is missed (`C80_plain`, `Separate.own`).
* C81: `/a` an instance of `/b` and `/b/c` an instance of `/a`: `comp_proxies` never ends (`C81_endless_violation`).  The dirty map knows no parents, so `discover_proxies` does not see the cycle.
* C82: whether a source is implied is decided when the proxy is made; along a chain of instances the source may become a node later, and the proxy is taken out all the same (`C82_chain_violation`).
* C83: an instance path given on a child of an instance is overwritten when the source has a child of that name (`C83_overwritten_violation`).
* C79: a world node with an instance path gets proxies with malformed paths such as `//b`; the theorems exclude it (`Start.world`).
* C84: names of implied proxies stay in the child order of the instance after the proxies are taken out (`rm_from_child_order=False`).
* C84: for a missing (implied) source `create_instance_node` makes a spec node in the composite layer only to read it; `create_spec_node` puts its name into the child order of its parent there, so a source which is no instance comes to list a name without a node (`C84_source_violation`).
* C85, C87, C88: local attribute names are read from active layers only, so on a muted layer adding overwrites an attribute of that name (`C85_muted_violation`), renaming and setting do nothing (`C87_muted_violation`, `C88_muted_violation`).
* C86: `hasattr` also sees the class; deleting a built-in name raises `AttributeError` (`C86_class_violation`).
* C87: renaming an attribute to the name it has gives it another name (`C87_same_name_violation`).
* C88: creating through `node_setattr_data` ignores the name `add_node_attr` returns: an illegal name gives two attributes (`C88_illegal_name_violation`), a built-in one sets the class attribute (`C88_builtin_violation`).  The type is not recorded (`C88_type_violation`), and an empty text is stored or not depending on the order of the data (`C88_order_violation`).
* C89: `get_node_attr_value` turns 0, False, empty containers and `None` into texts, so copying changes them (`C89_false_violation`); types are not copied; with illegal names the result depends on the order of a set (`C89_illegal_violation`).
* C90: `remove_sublayer` removes from the list it loops over, so only every second sub layer is removed with a layer (`C90_every_second`, `C90_second_violation`); the others stay in the stage, unreferenced.  A reference without layer (file not loaded) to the file of the removed layer raises `KeyError` half way (`C90_key_error_violation`).
* C91: a new layer without parent looks at `_sub_layers[:idx - 1]` for references, which misses the layer just above itself and, for index 0, takes all layers but the lowest: layers get two parents (`C91_double_violation`).  The references it makes are stored under the real path while `sub_layer_paths` gets the file path, so they stay when the lower layer is removed (`C91_real_path_violation`).
* C93: `set_node_child_order` merges the orders of the target layer and the layers below only, so an order set on a weak layer wins over stronger ones until the next composition (`C93_stronger_violation`); it merges from strong to weak while composition merges from weak to strong, and `list_merger` is not associative (`C93_fold_violation`); names left out stay (`C93_removed_violation`).
* C94: `propagate_child_order` compares dependents with the old order of the layer node.  If that was empty, all names are appended again and double (`C94_double_violation`); if the old names do not stand in a row, the other names of the dependent are lost from its order, because `updated_child_order is new_child_order` is never true (`C94_lost_violation`).
* C95: `get_reverted_child_order` reads the composite order, which has the edits of the layer; an order naming all children is given back unchanged (`C95_kept_violation`), against its docstring.
* C96: `targeted_comp_pre_proxies` looks for the place of a new spec by passing the bases, but skips proxies.  A spec added in a layer weaker than all others, to a node whose parent is a proxy or to the world (which has no other bases), is never placed; the failsafe makes it the only base, and the stronger specs and their opinions are lost until the next full composition (`C96_lost_violation`).
* C98: `get_arc` takes the empty text for a missing instance path, and every path starts with `'' + '/'`: each base which is neither a reference nor the parent counts as instance source, for instance the nearest node above an implied parent (`C98_implied_violation`).  Such a node then takes enabled state, comment and code from it in `update_inherited_attrs`, which a full composition does not do.
* C99: after deleting the strongest spec the composed values are those of the others, but the attribute sources still name the layer deleted from (`C99_source_violation`).  The child orders left are merged with the weaker one as base, against composition (`C99_order_violation`).
* C100: for custom code nothing is put before the code but the reported line is still lowered by one (`C100_custom_violation`).
* C101: `set_node_code_lines` leaves the loop over the dependents at the first one with code of its own (or missing, or already sharing the list), where it should go on; the dependents after it keep the old code (`C101_stop_violation`).  Code set on a weak layer is shown though a stronger layer has code (`C101_stronger_violation`).
* C102: clearing the code of an instance shows the code of its source although other layers of the node have code (`C102_hidden_violation`); dependents after one with its own code are left with the emptied list (`C102_stop_violation`).
* C103: `set_node_enabled` passes over every class whose path occurs in the path of the node, meant for parents, so also the specs of stronger layers (`C103_stronger_violation`) and of any node such as `/a` for `/x/a`.  A different opinion of the instance source keeps the new state from being shown (`C103_source_violation`), taking an opinion away shows none though a weaker layer has one (`C103_cleared_violation`), and dependents lose their own opinions (`C103_dependents_violation`).
* C104: `get_node_instanced_attr_names` takes over the instanced names of the parent without leaving out local ones, so a local name can be listed as instanced too (`C104_local_violation`); below a path without node, inherited names count as instanced (`C104_implied_violation`).  The two functions ask about the parent twice, so the number of calls is 3·2^depth − 2 (`C104_calls_violation`).
* C105: `get_layers_with_opinion` with an empty list of layers answers for all layers (`C105_empty_violation`).
* C106: `get_historical_opinions` drops the first opinion found, also when the node itself has none (a value of `None` or `[]`), so the strongest inherited opinion is missing (`C106_empty_violation`).  For internal attributes the opinions of instance sources are listed for all attributes, also those an instance does not take.
* C107: duplicating an instance which has a node in place of a proxy gives that node another name, because the composition already shows a proxy there (`C107_instance_violation`); nodes below a gap are not copied (`C107_gap_violation`); nodes below the free path of the new root become its children and displace copies (`C107_capture_violation`); names with other characters than word characters are changed (`C107_name_violation`); descendants of a node of another layer are never copied (`C107_other_layer_violation`).
* C108: with a parent given, `add_node_hierarchy` looks for and reports another path than the one of the node it makes, and makes it again at each call (`C108_parent_violation`).
* C109: `get_tokens_from` determines the kind from the token with its brackets, so every token counts as an attribute reference and no other kind is ever found (`C109_kind_violation`); file names are reported as attributes (`C109_file_violation`), references to the parent by dots are reported at a wrong place (`C109_dots_violation`), attributes read through nested tokens, and tokens before these, are not reported (`C109_nested_violation`), `${self.attr}` is reported although the description excludes it (`C109_self_violation`).
* C110: `historical_resolve_attr_ref` reads references in the values of other nodes at the first node (`comp_node` is handed on instead of the node the value came from), keeps of a value with a `file::` token only the file and drops the text around it, does not follow a reference made with a token in it, and reads `${_nxtpath}` and the other special tokens as references to attributes of that name; each time the text differs from the one `resolve` gives.
* `add_node` of a path above existing nodes (an implied parent becomes a real node) re-composes only the new node: the nodes below keep the base they had, so attributes of the new node do not reach them until the stage is composed again (`C111_gap_violation`).
* `add_node` below an implied parent: the arc from the nearest node above is classified as an instance arc (`get_bases_arc_dict` finds neither the same path nor the parent path), so `update_inherited_attrs` hands its enabled state, comment and code to the new node; a node added below a real parent gets none of these (`C111_settings_violation`).
* `delete_node` of the last spec of a node with children (`recursive=False`): `ripple_delete` takes the composite node away, but the composite nodes below keep it as a base class, so they keep showing the user attributes of the deleted node until the stage is composed again (`C112_orphan_violation`).
* `setup_runtime_layer` puts the world's composite node into the cache layer (stage.py:4012); `CacheLayer.add_node` replaces its code by the lines of its cached code, which it never has, so the world's code in the runtime layer becomes two empty lines (`C113_world_violation`).
* A cached node is saved through its own `__dict__` only: user attributes which the world has from its spec classes are missing from the saved cache (`C113_inherited_violation`); attribute values 0, False, '' computed in a run come back as `None` (`C113_cache_partial`).
* C114: `infer_lower_comp` (stage.py:2004-2147) composes no opinions for the inferred node itself. Its instance path is read with `getattr` from the strongest lower spec (lines 2128-2135), so an instance path given by a weaker layer is lost when a stronger one has the node without it; ancestors do get the strongest opinion (lines 2099-2104). Likewise code, comment and enabled are those of the strongest lower spec even if it has no opinion, and those of the parent if no lower layer has the node.
* C115: `set_node_instance_path` (stage.py:1490-1549): set on a weaker layer, a path replaces the one of the stronger layer in the composite node (`has_stronger_opinion` never says yes, C54); clearing a relative path does nothing, as the first historical opinion is then the text of the spec itself, which is cleared only later (line 1552); clearing on a layer without a path removes the path of the weaker layer (C106); and as the source is always set to the target layer (line 1548), a path of a weaker layer can not be cleared after one of a stronger layer was.
* C116: values are handed on through the classes (stage.py:4114-4122), but a text pushed back by one node is resolved and evaluated again when the next node reads it (lines 2229-2239), so a text `5` set by code arrives as the number 5; attributes added by code are not handed on; and a value replaced by an equal one of another type (`1` by `True`) is not pushed back.
* C117: `execute` is documented to take the index of a start point (stage.py:3760-3774), but lines 3779-3789 take a text only and fall back to the first start node for anything else, so an index which does not exist is no error either.
* C118: `load_file_data` reads every file as JSON (`file_type` is fixed to ASCII, nxt_io.py:72), so a file written with `file_format=BINARY` can never be loaded (`C118_binary_violation`); `save_file_data` opens the file for writing before it knows whether the data can be written, so data JSON cannot hold destroy the former file (`C118_lost_violation`; `SpecLayer.save` checks first, `CacheLayer.save` does not); without a path it raises `TypeError` where the documentation promises a temp file (`C118_refused`).
* C118: after saving a layer under another name the world node's `_source_layer` (left out by `descendants()`), the sources of all attributes and the layer's `filepath` still name the old file (`C118_stale_violation`).
* C119: `Session.save_file` takes `k[0]` of the keys of `_loaded_files`, which are floats (stage uids): it raises `TypeError` whenever a graph is loaded and never saves (session.py:110-111).
* C119: `load_file_data` enters the path as `filepath` while `Stage.__init__` reads `_filepath` (stage.py:144), so `stage.filepath` of every loaded file is `untitled.nxt`: `get_stage` reloads a file each time, and `get_stage('untitled.nxt')` gives an arbitrary loaded graph.
* C119: `new_file` searches for an unused name and hands it over as `name`, but the layer reads `alias`: every new graph is called `untitled` (session.py:38-39, stage.py:151).
* C119: stages are keyed by `time.time()`; two stages made at one clock reading replace each other (session.py:40, 85).
* C120: `RPCServerProcess.run` raises `OSError` when the server comes up at the fifth check, since it tests `count == STARTUP_TIMEOUT` after the loop (session.py:344); the server then runs on, held by nobody. A server which never comes up leaves its process behind.
* C120: `_start_rpc_server` overwrites `self.rpc_server` with `None` if a server is running already, so a session executing a remote graph loses its own server; an execution which needs no server shuts down the one the session holds (session.py:175-179, 242).
* C120: `terminate` kills whichever server answers at the recorded address, owned or not (session.py:376-378).
* C120: `execute_nodes` builds the stage between starting the server and the `try`, so a failing build leaks the server (session.py:191-193).
* C120: `NXT_VERBOSE` stays `socket` after starting a server with socket logging if it was unset before, and always if starting fails (session.py:319-347).
* C121: `exec_in_headless` adds the start node only for contexts without arguments of their own; for the others (Blender, Maya batch and the like) and the Unreal editor it is dropped without notice (server.py:132-143).
* C121: `exec_in_headless` expands the graph path in the server process, which has changed to nxt's root directory: a relative path given to `execute_graph(…, context=…)` names another file there (server.py:117, 188-190).
* C121: `create_context` stores a given absolute graph path relative to the character-wise common beginning with the plugin file, and the server expands it from nxt's root: the graph is not found unless it lies there (nxt/__init__.py:126-129). The `replace` on line 129 has no effect.
* C121: `create_context` checks only for its own plugin file; a context named like one registered otherwise, for instance `python`, is made and never found.
* C122: `get_running_server_address` ignores the host recorded in the file (remote/__init__.py:17-18).
* C123: `set_verbosity` never assigns the global `verbose_handler`: without `NXT_VERBOSE` each call adds another stderr handler, every record is shown once per call, and verbosity 0 does nothing (nxt_log.py:193-212).
* C123: with `NXT_VERBOSE` above 0, verbosity 0 removes the handler but keeps it on record, so that a later positive verbosity shows nothing; and level EXECINFO set by verbosity 1 is not undone by 2 (nxt_log.py:196-212).
* C123: session logs are named by the clock in whole seconds; two sessions made within a second share a file, everything is written to it twice, and closing both leaves one handler attached (nxt_log.py:216-275).
* `set_node_instance_path` (C124) does not compose the instances of the changed node anew, it only adds the node to their bases. Giving `/a` the source `/p/y` when `/p/x` is an instance of `/a` raises a TypeError although the graph can be composed; taking it away again leaves `/p/x` without its parent. Instances of instances get the node as a direct base, and keep it when the instance between is changed.
* The instance path `/` (C124) is accepted for any node but cannot be changed afterwards below the first level: `targeted_uncomp` (stage.py:3256-3257) removes the world from the bases, where it is not, and raises a ValueError.
* C125: after node code has executed other nodes, an error in it is reported under the path of the node run last, with the line number of the failing code and a line of the other node (or `LINE NOT FOUND`): the console keeps `node_path` and `running_lines` of the nested run (stage.py:4095-4096). Custom code has no line put before it, but runtime.py:69 takes one off: line numbers are one too small, and an error in line 1 is reported as line 0 with the text of the last line.
* C126: after `execute` returns, `self` in the calling code is the frame of the node run last (stage.py:4097 is not undone): what the code writes to `self` then goes to the cached frame of that node and never to its own node. Variables of the calling code are overwritten by called code using the same names; variables a called node declares `global` are removed when the calling node ends.
* C126: a node can not be executed while it is running (stage.py:3843-3844): the exit time closes the outer run and asking for the time of the last run, still open, raises `TypeError`. `running` is false while code goes on after a call, and stays true after `KeyboardInterrupt`, which also leaves the variables of the node behind (stage.py:4102-4112).
* C127: two instances equally far from their source are composed in the order in which they stand in the layer, and this can decide whether the composition raises `TypeError`: with `/p/c` an instance of `/q/b` and `/q` an instance of `/p/x`, the stage composes if `/q` is listed before `/p/c` and fails otherwise (`C127_success_violation`).
* C128: a stage which composes in the editor may raise `TypeError` once saved and opened again, because loading orders nodes by path while the editor keeps them in the order in which they were added, and the order of nodes in a layer can decide whether the composition succeeds (C127). `C128_success_violation` shows it with six nodes through the modelled save and load.
* C129: `_check_if_inst_diverges` (stage.py:2150-2192) compares only nodes above the given one, so another instance path for the node itself in a lower layer goes unreported (`C129_self_violation`). Composite nodes hold the expanded instance path (stage.py:3024) and spec nodes the relative one, so every relative instance path of a node above gives a false warning (`C129_relative_violation`).
* C130: `IPCWait` (nxt_socket.py:267-300) does not nest: the inner one of `_rebuild_comp` tells the server to go on while the outer command still works. After a load whose composition failed, `run` executes nodes with the server released (`C130_run_violation`). If the server does not answer, a second wait message releases it before the work begins (`C130_answer_violation`).
* C130: `send_to_server` logs an error when there is no server (nxt_socket.py:251-253) in spite of its own warning not to log; a log handler which is still installed after the socket became stale calls it again without end (`C130_log_violation`). On Python 3 `bytes` of text without an encoding (nxt_socket.py:255) raises `TypeError` for every message.
* C131: a path token (file_fallbacks.py:270-280) always begins at the first existing file root, whether or not the file is there, while a file token tries all roots and then the directory of the layer; with the file in a later root the path token names a file which does not exist (`C131_path_violation`). A plugin which raises while it is loaded is not caught (plugin_loader.py:30), so that one broken file in the user's plugin directory keeps nxt from being imported (`C131_raises`).
* C132: moving a node below another node and back again (`parent_nodes`, stage.py:1101-1227) does not restore the layer: all paths are as before, but the node is now the last one in the child order of its parent, so that its siblings run before it. Renaming and renaming back keeps the position.
* C133: `namespace_merger` (stage.py:2515-2587, used by the tests only) fails for a source below the target: `['a','b','c']` into `['a','b']` gives `['a']`, a namespace shorter than the target. For namespaces of equal length the branch of line 2572 lacks the `break` of its neighbours, so names are appended twice: `['x','a','b','c']` into `['y','x','c','d']` gives `['y','x','a','b','c','b','c']`. An empty target raises `IndexError`.
* C134: `SpecLayer.ancestors` with return type NameDict (nxt_layer.py:248-250) uses the name of the node below as the key of an ancestor, so that an ancestor is lost if two nodes on the way have one name. `get_top_node` (stage.py:3681-3686) returns the first of the list, which is the nearest ancestor and not the top node. `Stage.total_roots` (stage.py:310-314) reads `_children`, an attribute no layer has.
* C135: `prev_node` (stage.py:163-169) tests `prev_index > 0` and so never returns the first node of the order. Nothing in the package sets `execute_order` or `current_node`.
* `cli_file_convert` with `replace`: the text before the last dot of the base name is taken as the name, so `dir/base` without a dot is written to `dir/.base` and the file itself stays unconverted (legacy.py:590-597; C136).
* `cli_file_convert` does not look at the version gate of `load_file_data`: a file newer than 1.17 makes the loop of `FileConverter` count up for ever, and a file without a version is taken for 0.45 although opening it takes it for the current version (legacy.py:37-45, 52; nxt_io.py:79-85; C136).
* Converted files get version 1.16, the graph version is 1.17: such a file goes through the converter each time it is opened, unchanged (legacy.py:497; C136).
* Of two roots with the same `execute_in` only the first in the layer's order of nodes is executed (nxt_layer.py:609-626). Loading sorts the nodes by path (C59), so saving and reopening a graph can change which of the two runs. Children missing from the child order and several start points follow the order of the layer in the same way (C137).
* A graph in which two roots execute after the same root runs one of them, and may run the other one after it has been saved and opened again (C138_two_next_violation).
* C139: `set_mute_over`/`set_solo_over` (nxt_layer.py:639-662) copy the comped outer dict but change the inner dict in place. On a layer below the top one this changes the override of the layers above as well, so that layers beside it are muted (`C139_beside_violation`), and writes all overrides of the layers above into the layer (`C139_baked`, `C139_baked_violation`).
* C139: muting a layer through the top layer which a layer in between solos makes all other layers active again (`C139_solo_lost_violation`).
* C139: the own mute and solo of a layer are saved but never read (nxt_layer.py:111-112), so they are lost by opening the file (`C139_own_state_lost_violation`).
* C140: an attribute with the value `0` (or `False`, `''`, `[]`) is `None` after saving and opening, so a graph whose code adds to it runs before and ends with an error after (`C140_falsy_violation`; nxt_node.py:341-361, see C25).
* C141: `ExitNode` raised by the code of the world is not caught (stage.py:3811-3813 is outside of the `try` of `execute_nodes`): no node is run and the exception reaches the caller (`C141_exit_violation`).  The same holds for `ExitGraph`, whose `runtime_layer` stays `None` then.
* C141: a parameter for an attribute of the world, as `/.y`, is seen by the nodes below only if some layer has a world node; otherwise the world is made for the execution and is no base of any node (`C141_world_param_violation`).
* C142: a value `None` is not passed on by a reference: `y = ${/a.x}` with `x` being `None` gives the code of the node the empty text `''` (stage.py:1700-1706, 2212-2260); every other value whose `str` is its literal arrives unchanged.
* C143: a copy below an instance need not have the attributes of what it copies. A node above the instance comes before the original itself: with `/g` having `k`, `/g/m` an instance of `/r`, and `/r/b` having its own `k`, the copy `/g/m/b` has the `k` of `/g` (`C143_shadow_violation`), because the parent arc puts the whole lineage of the copy before its instance source (stage.py:3139-3189).
* C144: `build_stage` merges `positions` and `collapse` of all layers before it looks at the range and at muting (stage.py:2620-2625), so a muted or soloed-away layer, and every layer above `from_idx`, still decides where a node of the composition stands and whether it is collapsed (`C144_muted_violation`).
* C144: muting the top layer changes `cwd` and `real_path` of the composition to those of the next layer, even if the muted layer has no nodes (`C144_cwd_violation`); a file path relative to the graph then means another file.
* C144: a stage without layers raises `AttributeError` in `build_stage` (2616), where `top_layer` is `None` (`C144_refused`).
* C146: after `save_layer` under another path the sources of all attributes of the layer still name the old file (`propegate_real_path` sets only the source layer of the nodes), so `lookup_layer` finds no layer for them until something refreshes the layer (`C146_saved_violation`).
* C146: `refresh` takes the attributes to sign from `get_node_local_attr_names`, which gives none on a muted layer, so sources on a muted layer are never brought up to date (`C146_muted_violation`).
* C146: with the same file in two layers `lookup_layer` gives the upper one also for attributes of the lower one (`C146_twice_violation`).
* C146: the comment and type of an attribute are inherited apart from its value: a layer which sets the value but no comment shows the comment a weaker layer or an ancestor gave its own value, while the source names the strong layer (`C146_comment_violation`).
* C146: `get_node_attr_data` cuts a name such as `x_type__nxt2_type__nxt` at the first `_type__nxt` and gives the data of `x` (`C146_name_violation`).
* C147: `set_node_comment` and `set_node_exec_in` (stage.py:3736-3746, 3880-3884) change only the spec and never tell the composite layer. The class made by composing an instance carries its comment itself, so a comment set on an instance is not shown there, nor one set on its source by the instance, until the stage is composed anew (`C147_comment_violation`).
* C148: the child order of an instance is merged with `list_merger(own, source)` (stage.py:3035), which keeps the order of the own list and places the names of the source by index. With a new child in front and a node of its own for the first child of its source, an instance executes that node behind the copy of the second: source order `y, x`, own order `n, y`, composed order `n, x, y` (`C148_order_violation`). Own orders which are part of the source's order leave it as it is (`C15_part`).
* C152: a node without an instance path whose parent is only implied has the nearest node above filed as its instance source by `get_bases_arc_dict` (stage.py:90, `is_ancestor(check_path, '')`): `C152_implied_violation`. `set_node_child_order` (stage.py:3577-3585) then merges the child order of that node into the one of the implied node's child when it is cleared.
* C152: `safe_get_node_instance` (stage.py:1563-1580) looks up the instance path only; for a path composing refuses, such as the parent of the node, it gives a node the instance does not inherit from (`C152_refused_violation`).
* C153: `get_instance_targets` (stage.py:3475-3487) keeps no record of the nodes it has seen, unlike `get_instance_sources`: for a node which is an instance of itself through other nodes it never returns (Python raises `RecursionError`) (`C153_loop_violation`). A node whose instance path composing refused, such as a node naming its own parent, is still returned (`C153_refused_violation`).
* - C154: `add_node` without `fix_names` overwrites: of two children of one name both are reported but the layer keeps the second only in its path table, and a node which is already at the path is replaced while the nodes below it stay (`C154_twins_violation`, `C154_replaced_violation`).
* C155: a pre-release file with nodes but without the top level entry `data` raises a `KeyError` (legacy.py:155), although `V1.convert` itself treats `data` as optional (legacy.py:123). A node which its parent does not list in `execute_order` is removed without its descendants, which stay in the file at paths whose parent is missing (`C155_unlisted_violation`, `C63_orphans`). The widget type is unpacked by the first converter and dropped by the last one.
* C156: the old flag `-gui` never opens the editor: with an editor installed `args.no_rpc` is missing and the command raises, without one the graph is executed instead.
* C156: the command `legacy`, offered in the help, only shows the help, as its parser sets no `which`.
* C156: `-r` of `convert` lacks `store_true` and wants a value; any text but the empty one replaces the file.
* C156: `-v` with a file named without a command puts the text `True` into `NXT_VERBOSE`; every process started from there raises `ValueError` when nxt is imported.
* C157: removing an alias or colour override of a layer touches the table of the top only; an entry in a layer between stays and is seen.
* C157: a lock override of a layer without colour override is not removed (the test looks in the colour table, see C56), so the layer stays locked.
* C160: a graph file with one node path (or any key) written twice is read without a message; the earlier entry is dropped and gone after the next save (`C160_lost_violation`, `C160_ignored`).
* C161: `execute_graph` checks the context against the list of the calling process, the server against its own: a context made known with `register_context` outside a plugin passes the check, and the server which is started for it refuses it (`C161_unshared_violation`). An empty name passes the check as no context, but the session takes only `None` for no context and starts a server (`C161_empty_violation`).
* C162: the numbers of `w` count from zero, the documentation from one: each number gives the next mark, and `w(s, 4)` raises an `IndexError` (stage.py:4157-4166). Nothing in the text is escaped.
* C163: `register_layer` and `new_layer` write the place of the new layer only; unless it comes last, the layers behind it record stale places until something numbers all layers anew, as `new_sublayer` does (stage.py:2601-2605).
* C164: the node table of the world's descendants leaves out the world by `path is nxt_path.WORLD` (nxt_layer.py:493); an equal text which is another object is listed as a descendant of itself.
