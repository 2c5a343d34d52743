{"id": "C01", "title": "Token wrap/unwrap round trip", "statement": "Wrapping any text in token delimiters and asking for the token's content returns exactly that text, even when the text itself contains delimiters.", "quantifier": "for every string content", "why_tests_cant": "the input space of strings is infinite and the risky inputs are those containing '${' or '}' in arbitrary positions", "anchors": ["nxt/tokens.py: get_token_content, make_token_str"]}
{"id": "C02", "title": "Standalone token scan yields balanced, disjoint, in-order pieces of the text", "statement": "Every token returned by the standalone-token search is a contiguous slice of the input that starts with '${', ends with '}', has as many openers as the closers counted inside it, the slices are disjoint and in left-to-right order, and a text whose openers are not all closed yields no token at all.", "quantifier": "for every string", "why_tests_cant": "positions, nesting depth and malformed tails are unbounded", "anchors": ["nxt/tokens.py: get_standalone_tokens"]}
{"id": "C03", "title": "Type filtering of standalone tokens only removes tokens", "statement": "Asking for particular token types returns the sublist of the unfiltered result whose content starts with one of the requested prefixes; asking for attribute tokens (empty prefix) filters nothing.", "quantifier": "for every string and every set of token prefixes", "why_tests_cant": "two unbounded arguments", "anchors": ["nxt/tokens.py: get_standalone_tokens"]}
{"id": "C04", "title": "Atomic partition loses no text and finds an innermost token", "statement": "When the atomic partition of a text succeeds, before + token + after is the original text, the token's content contains neither '${' nor '}', and nothing after the opener of the returned token contains another '${'; when it fails, the text has no '${' or has no '}' after its last '${'.", "quantifier": "for every string", "why_tests_cant": "unbounded strings", "anchors": ["nxt/tokens.py: atomic_token_partition"]}
{"id": "C05", "title": "Atomic token collection terminates and only returns real innermost tokens", "statement": "Collecting atomic tokens terminates on every text, and every collected token is a substring of the text of the form '${' content '}' with content free of '${' and '}'.  It is not complete: an unclosed '${' to the right hides complete tokens to its left.", "quantifier": "for every string", "why_tests_cant": "recursion depth and text are unbounded; incompleteness needs a specific shape of input", "anchors": ["nxt/tokens.py: get_atomic_tokens"]}
{"id": "C06", "title": "Text without tokens resolves to itself", "statement": "Resolving a text with no '${' returns the same text whatever the node, layer and attributes are, and resolving never leaves the graph modified.", "quantifier": "for every text, graph and node", "why_tests_cant": "quantifies over all graphs", "anchors": ["nxt/stage.py: resolve, get_tokens_from, resolve_attr_ref_token", "nxt/tokens.py: get_standalone_tokens"]}
{"id": "C07", "title": "Token resolution terminates iff attribute references are not cyclic", "statement": "Resolving an attribute value terminates for every graph whose attribute references form no cycle; a graph where an attribute references itself (directly or around a loop) never finishes resolving.", "quantifier": "for every graph and attribute", "why_tests_cant": "termination over all reference graphs is not testable", "anchors": ["nxt/stage.py: resolve, resolve_attr_ref_token, get_node_attr_value"]}
{"id": "C08", "title": "Node path <-> namespace round trip", "statement": "Turning a namespace (list of non-empty names without '/' or '.') into a path and back gives the namespace, and turning a well formed absolute path into a namespace and back gives the path.", "quantifier": "for every namespace / well formed path", "why_tests_cant": "unbounded depth and names", "anchors": ["nxt/nxt_path.py: str_path_to_node_namespace, node_namespace_to_str_path"]}
{"id": "C09", "title": "Parent, name and join are mutually consistent", "statement": "For every well formed non-world path p, joining its parent path and its name gives p, the parent of parent+name is the parent, and the name of parent+name is the name.", "quantifier": "for every well formed path and name", "why_tests_cant": "unbounded", "anchors": ["nxt/nxt_path.py: get_parent_path, node_name_from_node_path, join_node_paths"]}
{"id": "C10", "title": "Ancestor list is exactly the chain of proper prefixes", "statement": "The ancestors of a path are listed nearest first, without the world path, contain no duplicates, and a path is listed iff it is a proper non-empty node-prefix of the path; the ancestor test agrees with that relation and is irreflexive and transitive off the world node.", "quantifier": "for all pairs of well formed paths", "why_tests_cant": "relation over an infinite set", "anchors": ["nxt/nxt_path.py: all_ancestor_paths, is_ancestor, get_parent_path"]}
{"id": "C11", "title": "Depth and trimming", "statement": "The depth of a path is its number of names; trimming to depth d yields the ancestor-or-self with depth min(d, depth).", "quantifier": "for every well formed path and every depth", "why_tests_cant": "unbounded", "anchors": ["nxt/nxt_path.py: get_path_depth, trim_to_depth"]}
{"id": "C12", "title": "Re-rooting a path rewrites the ancestor prefix and nothing else", "statement": "Replacing an ancestor of a path by another well formed path gives the new ancestor followed by the unchanged remainder; it must hold for every ancestor, including ancestors whose text occurs again later in the path.", "quantifier": "for every path, ancestor and replacement", "why_tests_cant": "needs repeated substrings; infinite space", "anchors": ["nxt/nxt_path.py: replace_ancestor"]}
{"id": "C13", "title": "Relative path expansion is canonical", "statement": "Expanding a relative path against an absolute start yields a path obtained by pushing and popping names ('..' at the root stays at root), absolute inputs are returned unchanged, and expansion is idempotent; the result never contains '..' or '.' directives.", "quantifier": "for every relative path and start path", "why_tests_cant": "unbounded directive lists", "anchors": ["nxt/nxt_path.py: expand_relative_node_path"]}
{"id": "C14", "title": "Attribute paths split and join losslessly", "statement": "Building an attribute path from a node path and an attribute name and splitting it returns the same pair; splitting is at the last dot.", "quantifier": "for every node path and dot-free non-empty attribute name", "why_tests_cant": "unbounded", "anchors": ["nxt/nxt_path.py: path_attr_partition, make_attr_path, is_attr_path, node_path_from_attr_path, attr_name_from_attr_path"]}
{"id": "C15", "title": "Child order merge keeps the union without duplicates", "statement": "Merging two duplicate-free orders gives a duplicate-free list with exactly the union of the items; if the orders share an item the base items keep their relative order; merging with an equal or contained overlay returns the base order.", "quantifier": "for all pairs of lists", "why_tests_cant": "the merge has index arithmetic depending on positions in both lists", "anchors": ["nxt/nxt_node.py: list_merger"]}
{"id": "C16", "title": "Depth sort is a stable sort", "statement": "Sorting node entries by namespace length yields a permutation of the entries, ordered by length, keeping the order of equal lengths.", "quantifier": "for every list of entries", "why_tests_cant": "hand written bubble sort over unbounded lists", "anchors": ["nxt/nxt_layer.py: sort_multidimensional_list"]}
{"id": "C17", "title": "Composite of two lists keeps all items once", "statement": "The composite list has exactly the items of both inputs, each once.", "quantifier": "for all pairs of lists", "why_tests_cant": "index arithmetic", "anchors": ["nxt/stage.py: composite_lists"]}
{"id": "C18", "title": "Generated node names never collide with siblings", "statement": "The unique node name returned for any requested name and any set of existing siblings is not one of the siblings; it is the requested name when that is free; the search always terminates.", "quantifier": "for every name and every finite set of siblings", "why_tests_cant": "termination and freshness over all finite sets", "anchors": ["nxt/stage.py: get_unique_node_name"]}
{"id": "C19", "title": "Generated attribute names never collide", "statement": "The unique attribute name returned is not one of the node's existing attributes, equals the request when free, and otherwise keeps the digit-stripped stem.", "quantifier": "for every name and every finite attribute set", "why_tests_cant": "as above", "anchors": ["nxt/stage.py: get_unique_attr_name"]}
{"id": "C20", "title": "Legalised names contain only legal characters", "statement": "A legalised non-empty name contains only word characters and does not start with a digit, and already legal names are unchanged.", "quantifier": "for every string", "why_tests_cant": "infinite strings", "anchors": ["nxt/stage.py: legalize_name"]}
{"id": "C21", "title": "New graph names are unused", "statement": "The name picked for a new graph differs from the names of all open graphs and the search terminates for every non-empty requested name.", "quantifier": "for every name and every finite set of open graphs", "why_tests_cant": "termination", "anchors": ["nxt/session.py: Session.get_unused_graph_name"]}
{"id": "C22", "title": "Active layers: solo restricts, mute removes", "statement": "The layers taking part in a composite are, in stage order, the soloed ones that are not muted when any layer is soloed, otherwise all unmuted ones.", "quantifier": "for every list of layers with any mute/solo state", "why_tests_cant": "exponentially many states, unbounded list", "anchors": ["nxt/nxt_layer.py: get_active_layers, SpecLayer.get_muted, SpecLayer.get_soloed"]}
{"id": "C23", "title": "Layer overrides: root-most override wins", "statement": "When several layers on the chain to the top layer override a referenced layer's mute/solo state, the state seen is that of the override closest to the top layer.", "quantifier": "for every chain of layers and override tables", "why_tests_cant": "unbounded chain", "anchors": ["nxt/nxt_layer.py: get_comped_layer_overs, SpecLayer.get_muted, SpecLayer.get_soloed"]}
{"id": "C24", "title": "Saving orders but never loses layer data", "statement": "Ordering the save dictionary keeps every key with its value exactly once.", "quantifier": "for every layer dictionary", "why_tests_cant": "arbitrary key sets", "anchors": ["nxt/nxt_layer.py: SpecLayer.order_save_dict, order_nodes_dict", "nxt/nxt_node.py: _order_node_dict"]}
{"id": "C25", "title": "Node save/load round trip", "statement": "Saving a node and loading it again yields the same internal opinions and the same user attributes, except that falsy attribute values, types and comments are not kept.", "quantifier": "for every node", "why_tests_cant": "all attribute sets and values", "anchors": ["nxt/nxt_node.py: get_node_as_dict, create_spec_node", "nxt/nxt_layer.py: SpecLayer.get_nodes_save_data, _construct_node_specs"]}
{"id": "C26", "title": "Version gate", "statement": "A graph file is refused exactly when its version is newer than the supported one (or unparsable), converted exactly when it is older, and otherwise loaded as is.", "quantifier": "for every version string", "why_tests_cant": "infinite version space", "anchors": ["nxt/nxt_io.py: load_file_data"]}
{"id": "C27", "title": "Legacy converters run once each, in order, and stop", "statement": "Conversion applies each converter with version between the file's version and the current one exactly once in increasing order; it never terminates when the file's minor version is above the current one.", "quantifier": "for every version", "why_tests_cant": "divergence is not observable by a test", "anchors": ["nxt/legacy.py: FileConverter.__init__, determine_version"]}
{"id": "C28", "title": "Legacy node arrangement keeps nodes and puts ancestors first", "statement": "The arranged node table is a permutation of the nodes whose path contains a '/', and no node is placed before one of its ancestors.", "quantifier": "for every node table", "why_tests_cant": "unbounded recursion", "anchors": ["nxt/legacy.py: V1.arrange_node_data, V109.arrange_node_data, V114.arrange_node_data"]}
{"id": "C29", "title": "1.15 -> 1.16 conversion keeps layer data", "statement": "Top level keys and meta data survive the conversion; node keys outside the known list are dropped.", "quantifier": "for every file dictionary", "why_tests_cant": "arbitrary key sets", "anchors": ["nxt/legacy.py: V115.order_save_data, order_node_data, order_meta_data"]}
{"id": "C30", "title": "Composite: strongest layer with an opinion wins", "statement": "For each node path and each tracked attribute, the composite holds the value of the strongest active layer that has an opinion, together with the source of that layer; without any opinion there is no value.", "quantifier": "for every stack of layers", "why_tests_cant": "unbounded number of layers and nodes", "anchors": ["nxt/stage.py: comp_pre_proxies, build_stage", "nxt/nxt_node.py: get_opinion, has_opinion"]}
{"id": "C31", "title": "Composite node set is the union of the layers' nodes", "statement": "Before instancing, the composite has exactly one node for every path present in some active layer, and no others.", "quantifier": "for every stack of layers", "why_tests_cant": "unbounded", "anchors": ["nxt/stage.py: comp_pre_proxies"]}
{"id": "C32", "title": "Composite child order contains every layer's children once", "statement": "The composite child order of a node is duplicate-free and has exactly the names listed by the active layers for that node.", "quantifier": "for every stack of layers", "why_tests_cant": "folding an index based merge over unbounded layers", "anchors": ["nxt/stage.py: comp_pre_proxies", "nxt/nxt_node.py: list_merger"]}
{"id": "C33", "title": "Dirty nodes are the reachable dependants", "statement": "The set of nodes reported dirty for a path is exactly the set of paths reachable from it in the dependency map, each reported once, and the computation terminates for cyclic maps.", "quantifier": "for every dependency map", "why_tests_cant": "cycles and unbounded graphs", "anchors": ["nxt/nxt_layer.py: CompLayer.get_node_dirties", "nxt/stage.py: extend_dirty_map, remove_from_dirty_map"]}
{"id": "C34", "title": "Dependency map updates", "statement": "Registering a dependant makes it (and only it) a new direct dependant; removing a path removes it as key and as dependant everywhere and changes nothing else.", "quantifier": "for every map history", "why_tests_cant": "histories of updates", "anchors": ["nxt/stage.py: extend_dirty_map, remove_from_dirty_map"]}
{"id": "C35", "title": "Instance trace terminates and has no repeats", "statement": "Tracing the sources of an instance terminates for every (possibly cyclic) instance graph and lists each source at most once, in order along the chain.", "quantifier": "for every instance graph", "why_tests_cant": "cycles", "anchors": ["nxt/stage.py: get_instance_sources"]}
{"id": "C36", "title": "Executable order within a root is ancestors first and respects child order", "statement": "The execution order of a root lists the root first, every listed node after its parent, skips exactly the disabled subtrees, and follows child order.", "quantifier": "for every tree", "why_tests_cant": "unbounded trees", "anchors": ["nxt/nxt_layer.py: CompLayer.get_exec_order, _ordered_descendants, children"]}
{"id": "C37", "title": "Root execution chain", "statement": "Starting from a root the chain follows execute_in links forward, visiting at each step the first root executing after the current one, and stops when there is none; with a cycle of execute_in links the chain never ends.", "quantifier": "for every set of roots", "why_tests_cant": "divergence", "anchors": ["nxt/nxt_layer.py: get_root_exec_order"]}
{"id": "C38", "title": "Node execution loop control flow", "statement": "Executing a list of nodes runs the enabled ones in order; a node exit continues with the next node, a graph exit or an error stops the loop, and every entered node has its exit time recorded whatever happens.", "quantifier": "for every list of nodes and every outcome of every node", "why_tests_cant": "all combinations of outcomes and lengths", "anchors": ["nxt/stage.py: execute_nodes", "nxt/runtime.py: ExitNode, ExitGraph, GraphError", "nxt/nxt_layer.py: CacheLayer"]}
{"id": "C39", "title": "Run timing bookkeeping", "statement": "Entry and exit marks of a node pair up in order: after matched enters and exits no run is open, an exit without an open run is an error, and the run time of a node whose runs have ended is the last exit minus the last entry.", "quantifier": "for every history of enter/exit events", "why_tests_cant": "histories", "anchors": ["nxt/nxt_layer.py: CacheLayer.set_node_enter_time, set_node_exit_time, get_node_run_time, was_during_node_exec"]}
{"id": "C40", "title": "Only changed values are pushed back after a node runs", "statement": "After a node ran, an attribute of the persistent node changes only if the node's code changed it; after an error nothing is pushed back.", "quantifier": "for every attribute table and every effect of the code", "why_tests_cant": "arbitrary user code", "anchors": ["nxt/stage.py: run"]}
{"id": "C41", "title": "Globals clean-up", "statement": "After running, a name survives in globals iff it existed before or some non-comment line declares it global.", "quantifier": "for every code and globals table", "why_tests_cant": "arbitrary code", "anchors": ["nxt/stage.py: clean_globals"]}
{"id": "C42", "title": "Runtime parameters", "statement": "Applying parameters sets exactly the attributes named by valid string paths of existing nodes to the text of the value, skips invalid ones, and leaves everything else as it was.", "quantifier": "for every parameter dictionary and graph", "why_tests_cant": "unbounded", "anchors": ["nxt/stage.py: set_runtime_parameters"]}
{"id": "C43", "title": "CLI parameter parsing", "statement": "A list of alternating keys and values parses to the mapping in which later duplicates win; odd lists and keys not starting with '/' are rejected.", "quantifier": "for every argument list", "why_tests_cant": "unbounded", "anchors": ["nxt/cli.py: execute"]}
{"id": "C44", "title": "Log stream framing is independent of segmentation", "statement": "Any sequence of records sent over the log socket is received as the same sequence, however the bytes are split into receives; a header split across receives must not lose records.", "quantifier": "for every record sequence and every segmentation", "why_tests_cant": "network schedules", "anchors": ["nxt/nxt_log.py: LogRecordStreamHandler.handle"]}
{"id": "C45", "title": "Socket header round trip", "statement": "The fixed width header written before a message has exactly the header size and parses back to the message length, for messages below 10^10 bytes.", "quantifier": "for every length", "why_tests_cant": "numeric boundary", "anchors": ["nxt/remote/nxt_socket.py: send_to_server"]}
{"id": "C46", "title": "Children and implied children", "statement": "The children reported for a path are the nodes whose parent path is that path, plus, when implied children are requested, one implied child per missing intermediate name; explicit order first, no duplicates.", "quantifier": "for every node table", "why_tests_cant": "unbounded tables; object identity of strings", "anchors": ["nxt/nxt_layer.py: SpecLayer.children"]}
{"id": "C47", "title": "Descendants are exactly the transitive children", "statement": "The descendants of a path are exactly the nodes below it in the tree, each once.", "quantifier": "for every tree", "why_tests_cant": "unbounded depth", "anchors": ["nxt/nxt_layer.py: SpecLayer.descendants, _ordered_descendants"]}
{"id": "C48", "title": "Layer reference cycle detection", "statement": "A layer is reported as a cycle exactly when its file is already on the chain of its parents up to the top layer.", "quantifier": "for every chain of layers", "why_tests_cant": "unbounded chains", "anchors": ["nxt/stage.py: check_for_layer_ref_cycle, load_from_file"]}
{"id": "C49", "title": "Layer loading order is depth first pre-order and terminates on acyclic references", "statement": "Loading a file places the layer, then each reference's layers in order; loading terminates when references are acyclic and does not terminate when they are cyclic; unreadable references are skipped.", "quantifier": "for every reference graph", "why_tests_cant": "divergence and unbounded depth", "anchors": ["nxt/stage.py: load_from_file"]}
{"id": "C50", "title": "Historical file values are distinct and non-empty, strongest first", "statement": "The sequence of fallback paths contains no duplicates, no empty values, and keeps depth order.", "quantifier": "for every layer range and resolution results", "why_tests_cant": "unbounded", "anchors": ["nxt/plugins/file_fallbacks.py: generate_historical_values, file_root_fallback"]}
{"id": "C51", "title": "Tracked log list", "statement": "After tracking a log its path is last in the list, entries of vanished files are dropped and no file younger than 48h is deleted.", "quantifier": "for every existing list and file system state", "why_tests_cant": "external state", "anchors": ["nxt/nxt_log.py: track_log_file"]}
{"id": "C52", "title": "Temp save rewrites every reference to its base name", "statement": "Saving a stage to a temp folder turns each reference into its bare file name, keeping order and the overrides attached to each.", "quantifier": "for every reference list", "why_tests_cant": "mixed lists of bare and qualified names", "anchors": ["nxt/stage.py: save_to_temp"]}
{"id": "C53", "title": "Environment variable unification", "statement": "Paths with '%VAR%' and '$VAR' forms are rewritten to one form, leaving other text as it was.", "quantifier": "for every path text", "why_tests_cant": "unbounded", "anchors": ["nxt/nxt_path.py: unify_env_vars"]}
{"id": "C54", "title": "Stronger-opinion test", "statement": "A node's value is reported as overridden exactly when a base stronger than the target layer has an opinion different from the composite's own.", "quantifier": "for every list of bases", "why_tests_cant": "unbounded", "anchors": ["nxt/nxt_node.py: has_stronger_opinion"]}
{"id": "C55", "title": "Node table edits keep path/object tables consistent", "statement": "After any sequence of adding, removing and renaming nodes in a composite layer, the path->node and node->path tables are inverse to each other and the node table lists exactly those nodes once.", "quantifier": "for every history of edits", "why_tests_cant": "histories", "anchors": ["nxt/stage.py: add_node_to_comp_layer, remove_node_from_comp_layer", "nxt/nxt_layer.py: SpecLayer"]}
{"id": "C56", "title": "Layer alias/colour/lock overrides can be set and cleared", "statement": "Setting an alias, colour or lock override for a referenced layer makes exactly that layer show it, whatever the layers in between say; clearing it makes the layer show what it showed without the top layer's override; no other layer's value changes.", "quantifier": "for every chain of override tables, every layer path and every value", "why_tests_cant": "unbounded chains and tables", "anchors": ["nxt/nxt_layer.py: set_alias_over, set_color_over, set_locked_over, _get_meta_attr, get_comped_layer_overs"]}
{"id": "C57", "title": "Layer save data round trip", "statement": "Loading the save data of a layer gives back its alias, colour, references, overrides, meta data, mute, solo and lock state.", "quantifier": "for every layer state", "why_tests_cant": "unbounded state", "anchors": ["nxt/nxt_layer.py: SpecLayer.__init__, get_save_data, get_meta_data"]}
{"id": "C58", "title": "Mute/solo overrides made on the top layer take effect", "statement": "After set_mute_over (set_solo_over) on the top layer, the named layer is muted (soloed) as asked whatever the layers in between say, its other state is unchanged, and no other layer changes.", "quantifier": "for every chain of override tables, every path and state", "why_tests_cant": "unbounded chains", "anchors": ["nxt/nxt_layer.py: set_mute_over, set_solo_over, get_muted, get_soloed"]}
{"id": "C59", "title": "Loading a layer completes the child orders", "statement": "After a layer is loaded from its save data, every node whose parent is in the layer is listed in the parent's child order; the listed order of the file is kept, names not listed are appended in path order, every other attribute is as loaded for the node alone.", "quantifier": "for every set of node entries with distinct well formed paths", "why_tests_cant": "any number of nodes, any listed orders, any subset of parents missing", "anchors": ["nxt/nxt_layer.py:156-175", "nxt/nxt_node.py:125-160"]}
{"id": "C60", "title": "Unpacking a pre-release file keeps every node", "statement": "Unpacking the node tree of a pre-release (version 0.x) file gives exactly one entry per node of the tree, under the path made of the names from the root down; the entry holds the node's instance, execute_in, enabled, code, comment, attributes and child order wherever they were given, and start_point exactly for listed start nodes.", "quantifier": "every tree of nodes, of any depth and width, with distinct slash-free sibling names", "why_tests_cant": "trees have unbounded depth; tests fix one example file", "anchors": ["/repo/nxt/legacy.py:129-162"]}
{"id": "C61", "title": "The 1.14 conversion and key ordering keep all data", "statement": "Deep key ordering changes no value found through any chain of keys and indices; converting a 1.14 file sets the version to 1.15, drops mute and solo only when they are false, keeps every node whose path contains a slash, and keeps all other data.", "quantifier": "every JSON document with distinct keys at all levels, of any depth", "why_tests_cant": "documents of arbitrary depth", "anchors": ["/repo/nxt/legacy.py:202-220", "/repo/nxt/legacy.py:399-486"]}
{"id": "C62", "title": "Reference conversion keeps the last given setting of each file", "statement": "Converting the reference entries of a 1.9 file lists the non-empty paths in order; the alias, colour, mute and solo of a path are those of the last entry for it that gives one, else what was there before.", "quantifier": "every list of references, duplicates included, and any existing overrides", "why_tests_cant": "arbitrary many repeated references with partly given settings", "anchors": ["/repo/nxt/legacy.py:274-315"]}
{"id": "C63", "title": "Dropping unlisted nodes", "statement": "Dropping nodes from a pre-release file removes exactly the nodes whose parent has data but does not list them in its child order; every other node keeps its data.", "quantifier": "every node table and every path of slash-free names", "why_tests_cant": "arbitrary node tables; the deletion loop edits the table it reads from", "anchors": ["/repo/nxt/legacy.py:222-232"]}
{"id": "C64", "title": "The child cache agrees with the nodes", "statement": "After any history of queries, additions, removals and clearings, the cached answer for the children of a path is the set of nodes whose parent path is that path.", "quantifier": "for every history of cache operations from an empty cache", "why_tests_cant": "unbounded histories; the fault needs an addition under a parent nobody has asked about", "anchors": ["nxt/nxt_layer.py: SpecLayer.children", "nxt/nxt_layer.py: add_child_to_child_cache, remove_child_from_child_cache, clear_node_child_cache"]}
{"id": "C65", "title": "Root parent of a layer", "statement": "The root parent of a layer is the top of the chain of its parents; the top layer itself has none.", "quantifier": "for every chain of layers", "why_tests_cant": "unbounded chains", "anchors": ["nxt/nxt_layer.py: get_root_parent"]}
{"id": "C66", "title": "Resolving puts meanings in the place of tokens", "statement": "Resolving a text gives the text with every standalone token replaced by what it stands for (the resolved value of the attribute it names, file path, file contents, node path or colour) and every other character kept.", "quantifier": "for every graph, node and text", "why_tests_cant": "quantifies over texts with arbitrary tokens and arbitrary replacement texts", "anchors": ["nxt/stage.py: resolve, determine_token_type, resolve_attr_ref_token, resolve_file_token, resolve_file_path_token, resolve_contents_token, get_node_attr_value"]}
{"id": "C67", "title": "Parenting moves exactly the subtree", "statement": "parent_nodes with free new paths moves each given node together with every node below it to the new parent, leaves all other nodes where they are, keeps the tables of the layer consistent and moves the names between the child orders.", "quantifier": "for every layer, list of nodes and new parent", "why_tests_cant": "trees of any depth, prefixes of path names, several nodes at once", "anchors": ["nxt/stage.py: parent_nodes", "nxt/nxt_path.py: replace_ancestor"]}
{"id": "C68", "title": "Renaming moves exactly the subtree", "statement": "set_node_name to a free name moves the node and every node below it to the new path and nothing else, and keeps the tables consistent.", "quantifier": "for every layer, node and name", "why_tests_cant": "trees of any depth; layers with missing parents", "anchors": ["nxt/stage.py: set_node_name"]}
{"id": "C69", "title": "Deleting removes exactly what was asked for", "statement": "delete_node removes the node, or the node and all below it, and nothing else, and keeps the tables consistent.", "quantifier": "for every layer and node", "why_tests_cant": "trees of any depth; layers with missing parents", "anchors": ["nxt/stage.py: delete_node"]}
{"id": "C70", "title": "Children inherit from the nearest node above", "statement": "After composing the parents, the value of an attribute of a node is that of the first node of its lineage which has it (own table, then layers strong to weak); composing parents never fails.", "quantifier": "for every set of composite nodes, every attribute and every order of the nodes", "why_tests_cant": "depth, gaps and processing order are unbounded", "anchors": ["nxt/stage.py: post_proxy_comp", "nxt/stage.py: _add_base_class"]}
{"id": "C71", "title": "Everything a source offers reaches its instance", "statement": "When composing succeeds, the resolution order of the nearest node above and of the instance source of a node lie in the order of the node, in the same sequence.", "quantifier": "for every composition which succeeds", "why_tests_cant": "the order comes from a graph of any shape by C3 linearisation", "anchors": ["nxt/stage.py: post_proxy_comp", "nxt/stage.py: _safe_mro_add_base_class"]}
{"id": "C72", "title": "Local opinions are never overruled by inheritance", "statement": "An attribute which one of a node's own layers has keeps its value, whatever the node inherits.", "quantifier": "for every composition which succeeds, every node and attribute", "why_tests_cant": "any graph of parents and instances", "anchors": ["nxt/stage.py: post_proxy_comp"]}
{"id": "C73", "title": "Precedence between parent and instance source", "statement": "For an attribute without a local value: without instance source the parent decides; if the source has the parent in its order, the source decides; otherwise the parent's own tables come first and the source decides where the parent has nothing.", "quantifier": "for every composition which succeeds", "why_tests_cant": "depends on the whole graph", "anchors": ["nxt/stage.py: _safe_mro_add_base_class", "nxt/stage.py: post_proxy_comp"]}
{"id": "C74", "title": "A node taking from itself is detected", "statement": "If a node takes from itself through parents and instance sources, composing reports failure rather than a wrong composite.", "quantifier": "for every graph with a cycle, of any length", "why_tests_cant": "cycles of any length through both arcs", "anchors": ["nxt/stage.py: post_proxy_comp", "nxt/stage.py: build_stage"]}
{"id": "C75", "title": "Enabled, comment and code follow the instance chain", "statement": "When composing succeeds, enabled, comment and code of a node are the first opinion met going from the node to its instance source and so on; their recorded source names where the value came from.", "quantifier": "for every composition which succeeds and chains of any length", "why_tests_cant": "relies on the order made by sort_instances", "anchors": ["nxt/stage.py: sort_instances", "nxt/stage.py: get_instance_sources", "nxt/stage.py: post_proxy_comp"]}
{"id": "C76", "title": "Nearness before layer strength", "statement": "Without instances, composing layers succeeds and a user attribute has the value of the nearest node of the lineage which has it in any layer, there in the strongest such layer.", "quantifier": "for all layers, nodes and attributes", "why_tests_cant": "any number of layers and levels", "anchors": ["nxt/stage.py: comp_pre_proxies", "nxt/stage.py: post_proxy_comp"]}
{"id": "C77", "title": "Graphs without cycles can be composed", "statement": "If no node takes from itself through parents and instance sources, composing succeeds.", "quantifier": "for every graph without cycles and every order of the nodes", "why_tests_cant": "conflicts of resolution orders need particular shapes", "anchors": ["nxt/stage.py: post_proxy_comp", "nxt/stage.py: _safe_mro_add_base_class"]}
{"id": "C78", "title": "Instances are visited after their sources", "statement": "The deep sort of the nodes keeps every node exactly once and puts each node after the node it is an instance of.", "quantifier": "for every composite layer", "why_tests_cant": "the order only matters for chains of instances in particular orders", "anchors": ["nxt/stage.py: sort_instances", "nxt/stage.py: instance_is_possible"]}
{"id": "C79", "title": "Proxies are justified and their making ends", "statement": "Every node and every instance path of the composition follows from the nodes at the start by copying below instances, no node is lost, and the making of proxies ends when finitely many nodes follow.", "quantifier": "for every composite layer, every order of children, and every identity of strings", "why_tests_cant": "needs the closure of all instances of instances", "anchors": ["nxt/stage.py: comp_proxies", "nxt/stage.py: discover_proxies", "nxt/stage.py: create_instance_node"]}
{"id": "C80", "title": "Proxies are complete", "statement": "When the making of proxies ends, every node which follows from the start is there, with the instance path that follows.", "quantifier": "for every composite layer", "why_tests_cant": "the loop stops by counting; a missed round needs a particular nesting", "anchors": ["nxt/stage.py: comp_proxies", "nxt/stage.py: discover_proxies"]}
{"id": "C81", "title": "Composing ends", "statement": "Making the proxies of a layer ends.", "quantifier": "for every composite layer", "why_tests_cant": "a test cannot observe non-termination", "anchors": ["nxt/stage.py: comp_proxies", "nxt/stage.py: discover_proxies"]}
{"id": "C82", "title": "Implied proxies are taken out, real ones kept", "statement": "After composing, a child of an instance is there exactly if the child of its source is a node.", "quantifier": "for every composite layer", "why_tests_cant": "whether a source is implied is decided at the moment a proxy is made", "anchors": ["nxt/stage.py: create_instance_node", "nxt/stage.py: comp_proxies"]}
{"id": "C83", "title": "Given instance paths are kept", "statement": "A node whose instance path is given keeps it in the composition; an empty one keeps the node from being an instance.", "quantifier": "for every composite layer", "why_tests_cant": "needs a child of an instance which is itself an instance", "anchors": ["nxt/stage.py: discover_proxies"]}
{"id": "C84", "title": "Child orders of instances", "statement": "Making proxies keeps child orders free of duplicates and in their own order, lists every proxy in its parent's child order, and gives an instance the names of its source's child order.", "quantifier": "for every composite layer with child orders free of duplicates", "why_tests_cant": "orders are merged many times in an order which depends on all instances", "anchors": ["nxt/stage.py: discover_proxies", "nxt/stage.py: add_node_to_comp_layer", "nxt/nxt_path.py, nxt_node.py: list_merger"]}
{"id": "C85", "title": "Adding a user attribute", "statement": "Adding an attribute gives it a free, unprotected name (the wanted one if possible), stores the given data with layer and node as source, and changes no other attribute.", "quantifier": "for every node, name and attribute data", "why_tests_cant": "name search and the meta attributes interact for any mix of existing names", "anchors": ["nxt/stage.py: add_node_attr", "nxt/stage.py: get_unique_attr_name"]}
{"id": "C86", "title": "Deleting a user attribute", "statement": "Deleting an attribute removes value, comment, type and source and nothing else; it undoes adding; an attribute which is not there is reported.", "quantifier": "for every node and attribute name", "why_tests_cant": "names which are prefixes of each other share no entry only because of the meta suffix", "anchors": ["nxt/stage.py: delete_node_attr", "nxt/stage.py: node_attr_exists"]}
{"id": "C87", "title": "Renaming a user attribute", "statement": "Renaming moves all data of an attribute to a free name, loses nothing, touches no other attribute, and can be undone.", "quantifier": "for every node, attribute and new name", "why_tests_cant": "depends on all names of the node and on the state of the layer", "anchors": ["nxt/stage.py: rename_node_attr"]}
{"id": "C88", "title": "Setting attribute data", "statement": "Setting a value records value, type and source; what is not given stays; an attribute is made only with leave to create, and then with the same data.", "quantifier": "for every node, attribute and data", "why_tests_cant": "the order of the data, empty texts and illegal names matter", "anchors": ["nxt/stage.py: node_setattr_data"]}
{"id": "C89", "title": "Copying user attributes", "statement": "Copying node data to another node gives the target every user attribute with value and comment, whatever order the set of names has.", "quantifier": "for every pair of nodes and every order", "why_tests_cant": "set order differs from run to run", "anchors": ["nxt/stage.py: transfer_node_data", "nxt/stage.py: get_node_data", "nxt/stage.py: set_node_data", "nxt/stage.py: get_node_attr_value"]}
{"id": "C90", "title": "Removing a layer", "statement": "Removing a layer takes it and the layers it references, and nothing else, out of the stage; the layers left keep order and data, know their places and lose only references to layers gone; it ends and raises nothing.", "quantifier": "for every stage, also with references in circles", "why_tests_cant": "lists change while they are looped over, in all shapes of reference graphs", "anchors": ["nxt/stage.py: remove_sublayer"]}
{"id": "C91", "title": "Adding a layer", "statement": "A new layer is inserted where it is wanted, is referenced by its parent, or references the layers below not yet referenced; removing it gives the stage back.", "quantifier": "for every stage, position and parent", "why_tests_cant": "off by one errors need the right stack of layers", "anchors": ["nxt/stage.py: new_sublayer", "nxt/stage.py: register_layer", "nxt/stage.py: remove_sublayer"]}
{"id": "C92", "title": "References in step with paths", "statement": "The list of references and the list of reference paths of a layer stay in step; every layer is the one its parent references by its file path.", "quantifier": "for every layer and every order of layers", "why_tests_cant": "unboundedly many layers", "anchors": ["nxt/nxt_layer.py: add_reference", "nxt/stage.py: assign_layer_parents", "nxt/stage.py: new_sublayer"]}
{"id": "C93", "title": "Setting a child order", "statement": "After setting a child order on a layer the composite node has each child once, keeps the order set, and has the order a new composition would give.", "quantifier": "for every stack of layers and orders", "why_tests_cant": "merging depends on all orders of all layers", "anchors": ["nxt/stage.py: set_node_child_order", "nxt/nxt_node.py: list_merger"]}
{"id": "C94", "title": "Propagating a child order", "statement": "A changed child order reaches the dependent nodes: the new order takes the place of the old one, names around it stay, no name doubles or is lost, other nodes are untouched.", "quantifier": "for every order and every list of dependents", "why_tests_cant": "orders of instances have any shape", "anchors": ["nxt/stage.py: propagate_child_order", "nxt/nxt_layer.py: children"]}
{"id": "C95", "title": "Reverting a child order", "statement": "The reverted child order of a layer has exactly its children, once each, in the order of the composite layer, without the edits of the layer.", "quantifier": "for every layer and order", "why_tests_cant": "unboundedly many children", "anchors": ["nxt/stage.py: get_reverted_child_order"]}
{"id": "C96", "title": "Adding a spec to a composite node", "statement": "A spec added to a composite node takes the place its layer gives it among the specs; the other bases stay; every composed attribute has the value and source of the strongest opinion, as after a full composition.", "quantifier": "for every composite node with any number of specs and other bases", "why_tests_cant": "unboundedly many layers and bases", "anchors": ["nxt/stage.py: targeted_comp_pre_proxies, _update_base_classes"]}
{"id": "C97", "title": "Updating inherited attributes", "statement": "An update of the inherited attributes gives each composed attribute the opinion of the first base whose arc hands it on, or the default; with only some arcs the opinions of specs stay; nothing else changes and proxies keep their instance path.", "quantifier": "for every list of bases and arcs", "why_tests_cant": "unboundedly many bases", "anchors": ["nxt/stage.py: update_inherited_attrs"]}
{"id": "C98", "title": "Classifying a base class", "statement": "The arc of a base is reference exactly for the same path, parent exactly for the parent path, and instance exactly for instance sources.", "quantifier": "for all node paths", "why_tests_cant": "paths of any depth", "anchors": ["nxt/stage.py: CompArc.get_arc"]}
{"id": "C99", "title": "Deleting a spec of a composite node", "statement": "When a spec is deleted and the composite node stays, its bases, composed values, their sources and its child order are those of the remaining specs.", "quantifier": "for every composite node", "why_tests_cant": "unboundedly many bases and children", "anchors": ["nxt/stage.py: delete_node"]}
{"id": "C100", "title": "Reading node code", "statement": "Resolving code line by line gives the text of the resolved lines split at line breaks; the line reported for a syntax error is the line of the code given.", "quantifier": "for every code and resolver", "why_tests_cant": "lines of any number and content", "anchors": ["nxt/stage.py:2308-2325", "nxt/stage.py:2327-2361", "nxt/stage.py:2363-2383"]}
{"id": "C101", "title": "Setting node code", "statement": "After setting code in a layer the node and the nodes which depend on it show what a composition gives; no other list of lines changes.", "quantifier": "for every sharing of code lists between nodes", "why_tests_cant": "aliasing of lists between any number of nodes", "anchors": ["nxt/stage.py:2385-2429", "nxt/nxt_layer.py:956-973"]}
{"id": "C102", "title": "Clearing node code", "statement": "After clearing the code in a layer the node and its dependents show the code of the strongest spec left which has any, or of the instance source.", "quantifier": "for every sharing of code lists between nodes", "why_tests_cant": "aliasing of lists between any number of nodes", "anchors": ["nxt/stage.py:2385-2429", "nxt/stage.py:2432-2433"]}
{"id": "C103", "title": "Setting the enabled state", "statement": "After setting the enabled state in a layer, the node and its dependents show the strongest opinion, as after a composition; no other node changes.", "quantifier": "for every resolution order", "why_tests_cant": "any number of layers, ancestors and dependents", "anchors": ["nxt/stage.py:3887-3922"]}
{"id": "C104", "title": "Local, instanced and inherited names", "statement": "Every attribute name shown at a node is exactly one of local, instanced or inherited; the lists have no other names and none twice.", "quantifier": "for every stage", "why_tests_cant": "any depth of nodes and instances", "anchors": ["nxt/stage.py:1626-1636", "nxt/stage.py:1638-1674", "nxt/stage.py:3688-3717"]}
{"id": "C105", "title": "Layers with an opinion", "statement": "Exactly the layers asked about which have the node, and an opinion on the attribute if one is named, are given in order; the uncomposed opinion is that of the strongest spec holding the attribute.", "quantifier": "for every list of layers", "why_tests_cant": "any number of layers", "anchors": ["nxt/stage.py:3519-3546", "nxt/stage.py:1608-1616"]}
{"id": "C106", "title": "Historical opinions", "statement": "The history of an attribute has all opinions of the classes a node inherits from, with their sources, once each, beginning with what the node shows, which is left out unless asked for.", "quantifier": "for every resolution order", "why_tests_cant": "any inheritance", "anchors": ["nxt/stage.py:4173-4206", "nxt/nxt_node.py:187-196"]}
{"id": "C107", "title": "Duplicating a node copies its sub-tree", "statement": "Duplicating a node of a layer with its descendants makes, beside it and at a path free in the whole composition, a copy of the node; below it there is for each node below the original a copy with the same names, the same attributes as a saved file would keep, and nothing else. No other node changes except that the parent lists the new root. The paths reported are those of the copies, each once, the new root first.", "quantifier": "all layers, all nodes, all depths of sub-trees, all contents of the other layers", "why_tests_cant": "Sub-trees have any shape and depth, and every copy is named against a composition built anew; tests duplicate one small sub-tree", "anchors": ["nxt/stage.py:720-788", "nxt/stage.py:764-782", "nxt/stage.py:578-683", "nxt/stage.py:420-467", "nxt/nxt_node.py:239-284"]}
{"id": "C108", "title": "Adding a hierarchy makes exactly the missing nodes", "statement": "add_node_hierarchy makes exactly the nodes of the hierarchy which are missing, from the top down, and reports their paths; they carry nothing but name and place and are listed by the node above; nodes which were there keep all but their child order; a second call makes nothing.", "quantifier": "all layers, all hierarchies of names", "why_tests_cant": "Which prefixes of the hierarchy exist is any subset; tests use one hierarchy on an empty layer", "anchors": ["nxt/stage.py:512-541", "nxt/stage.py:578-683", "nxt/nxt_node.py:101-162"]}
{"id": "C109", "title": "External sources are the references read", "statement": "get_node_attr_external_sources and get_node_code_external_sources report exactly the node and attribute of every reference to a node which the value holds; every attribute of another node which resolving the value asks for is among them; tokens can be asked for by kind, and only tokens of that kind are given; next_token_partition loses no text and finds an innermost token.", "quantifier": "for all texts, nodes, graphs of references and registered tokens", "why_tests_cant": "tests fix a few values; the set of references of arbitrary text with arbitrary nesting, relative paths and other kinds of tokens is unbounded", "anchors": ["nxt/stage.py:1788-1839 Stage.get_tokens_from, next_token_partition", "nxt/stage.py:2262-2306 Stage.get_node_attr_external_sources, get_node_code_external_sources"]}
{"id": "C110", "title": "File tokens at a depth of the layers resolve like other tokens", "statement": "The file fallback resolves a text at a depth of the layers to the text with each reference replaced by the value it names at that depth, recursively, in whatever order tokens are taken; with the values of a graph this is the text resolve gives there.", "quantifier": "for all texts, all values of attributes at the depth, all orders of tokens", "why_tests_cant": "Values nest to any depth and each may hold any number of references; tests try a few chains of references to files.", "anchors": ["nxt/plugins/file_fallbacks.py:133-167", "nxt/plugins/file_fallbacks.py:170-224"]}
{"id": "C111", "title": "Nodes added to a composed stage", "statement": "After any sequence of add_node calls on a composed stage, the composite layer has the same nodes, with the same values of every user attribute, as a fresh composition of the resulting layers would give; a new node's enabled state, comment and code are its own or none.", "quantifier": "every list of layers without instance paths, every finite sequence of add_node calls with any layer, parent path, name and attribute table", "why_tests_cant": "the incremental path and the full composition are two different algorithms; tests compare them on a handful of stages, never on all sequences of calls", "anchors": ["nxt/stage.py:544-718", "nxt/stage.py:2759-2851", "nxt/stage.py:3186-3233", "nxt/stage.py:3324-3362"]}
{"id": "C112", "title": "A composed stage keeps agreeing with its layers while specs are edited", "statement": "After any history of add_node, attribute functions on specs and delete_node, starting from a composed stage, the composite layer has the nodes, user attributes, enabled states, comments and codes of a fresh composition of the resulting layers.", "quantifier": "for all layer stacks without instances, all histories of edits of any length, all paths and attribute names", "why_tests_cant": "The incremental updates of the composite classes are only exercised by tests on a handful of fixed edits; whether the incremental result equals a recomposition for every sequence of edits needs an invariant over all histories.", "anchors": ["nxt/stage.py:789-956 delete_node", "nxt/stage.py:962-1099 ripple_delete", "nxt/stage.py:3235-3289 targeted_uncomp", "nxt/stage.py:1175-1280 attribute functions", "nxt/stage.py:2759-2851 targeted_comp_pre_proxies"]}
{"id": "C113", "title": "The cache layer of an execution can be saved and loaded again", "statement": "After any execution the cache layer, saved and loaded, has a node for each node run, holding the code text which ran and the user attributes of its frame with their values.", "quantifier": "for all execution histories, all code texts, all attribute names and values", "why_tests_cant": "Tests save one small cache; that code texts with any line breaks come back exactly and that every value survives is a statement over all texts and values.", "anchors": ["nxt/nxt_layer.py:976-1068 CacheLayer", "nxt/nxt_node.py:239-284 get_node_as_dict", "nxt/stage.py:4058-4091 run", "nxt/stage.py:3956-4012 setup_runtime_layer"]}
{"id": "C114", "title": "Nodes inferred at a depth below the display layer", "statement": "The node inferred for a path at a positive depth has, for every attribute of the user, the value which the active layers at that depth and below give: that of the nearest node of the lineage, there of the strongest layer which has it, as if the stage were composed from these layers; at depth 0 the node itself is returned and below 0, or without active layers, nothing.", "quantifier": "All layer stacks, muted and soloed states, ranges, depths, paths and attribute names, when no instance is followed.", "why_tests_cant": "Tests infer one node over two layers; they cannot try all stacks, gaps in the lineage and nodes missing from all lower layers.", "anchors": ["nxt/stage.py:2004-2147", "nxt/stage.py:2195-2210", "nxt/stage.py:3186-3233", "nxt/nxt_layer.py:1071-1090"]}
{"id": "C115", "title": "Setting instance paths", "statement": "After set_node_instance_path on a layer the composite node has the instance path its layers then give: that of the strongest layer which says anything, read relative to the node; the layer says what was given and the other layers what they said before.", "quantifier": "All nodes, stacks of layers, target layers, old and new instance paths (given or cleared).", "why_tests_cant": "Tests set one path on one layer; the result depends on what every stronger and weaker layer says, on relative paths and on the source left by earlier calls.", "anchors": ["nxt/stage.py:1490-1549", "nxt/stage.py:4173-4206", "nxt/nxt_node.py:212-236", "nxt/nxt_path.py:108-139"]}
{"id": "C116", "title": "Values flow from node to node during an execution", "statement": "During an execution each node is given, for every attribute of the user's, the value of the first class in its resolution order which has one, where a class has what was last pushed back to it by a run or else what it had at the start; each run pushes back exactly the values its code made different; in a composed stage without instances this is the nearest node of the lineage, its last written value before its strongest layer; nodes which do not take from each other can be run in either order.", "quantifier": "all class hierarchies with a resolution order, all node lists, codes (deleting no attribute), resolvers, literals, attribute names, layers without instances", "why_tests_cant": "Tests run a few graphs; they can not cover all orders of runs, all hierarchies and all codes, nor the independence of unrelated nodes.", "anchors": ["nxt/stage.py:2212-2260", "nxt/stage.py:3793-3847", "nxt/stage.py:4058-4125", "nxt/nxt_node.py:199-205"]}
{"id": "C117", "title": "Executing a stage runs the right nodes", "statement": "Executing from a root runs, in the order of the chain of roots, exactly the nodes which are neither switched off nor below a node which is, each once and after all nodes above it, unless a node ends it with an error or leaves the graph; from a node inside, those from it on; without a path the first node with a start point is taken, and without any the call is refused; custom code is recorded and closed.", "quantifier": "all layers, child orders, chains of roots without cycle, codes and outcomes", "why_tests_cant": "Tests execute a few graphs; the interplay of order, enabled states, chain of roots and ends of the execution has unboundedly many cases.", "anchors": ["nxt/stage.py:3758-3791", "nxt/stage.py:3849-3870", "nxt/stage.py:3925-3928", "nxt/stage.py:3986-3995"]}
{"id": "C118", "title": "A saved graph file loads again", "statement": "Data JSON can hold, saved under a path with a graph extension (.nxt, .nxtb), are read back entry for entry together with the place and name of the file; a whole layer saved and opened again has the same alias, colour, references, overrides, meta data and nodes. No other file is touched. Any other path is refused without touching the disk, and a layer with something JSON cannot hold is not saved and destroys no file. Saving under another name moves the layer and its nodes to the new file.", "quantifier": "all disks, paths, data, layers, path expanders and legacy converters", "why_tests_cant": "tests save a few layers to temp files; they cannot cover every path, every nesting of values and every former content of the disk", "anchors": ["nxt/nxt_io.py:53-149", "nxt/nxt_layer.py:820-844", "nxt/nxt_layer.py:928-932", "nxt/clean_json.py:8-27"]}
{"id": "C119", "title": "Graphs loaded in a session", "statement": "After any run of new, load, unload, save and get_stage requests a session holds exactly the stages made and not unloaded since, each under its uid; unloading removes one stage or raises; a failed load changes nothing; asking for a path gives the stage already loaded from it; new graphs get names not yet taken; save_file saves the graph asked for.", "quantifier": "all request sequences, all file contents, all clock readings", "why_tests_cant": "The table depends on arbitrary interleavings of requests and on clock readings that rarely collide in a test.", "anchors": ["nxt/session.py:25-144", "nxt/stage.py:132-191"]}
{"id": "C120", "title": "The rpc server around an execution", "statement": "An execution that asks for an rpc server (remote context or a sub-graph node in a layer) has one while the graph runs, and any run of executions leaves the running server, the server processes, the environment and the ownership as found, also when the graph raises; a server is only reported as failed if it did not come up; a session only stops a server it owns.", "quantifier": "all states of the world, all layers, all startup delays, all sequences of executions", "why_tests_cant": "Startup races, foreign listeners and pre-owned servers are awkward to reproduce; leaks show only in long-lived sessions.", "anchors": ["nxt/session.py:146-408", "nxt/remote/server.py:154-172"]}
{"id": "C121", "title": "Calling and making remote contexts", "statement": "A context name gives the first context registered with it; a newly made context can be found by its name and uses the graph given; a call of a context is a command line which the cli reads back as: run the context's graph with the caller's graph file, the cache file, the parameters file (if parameters) and the start node (if given).", "quantifier": "all registries, all paths, all argument combinations", "why_tests_cant": "The command line is only exercised through sub-processes; which arguments get lost depends on combinations (own args, start node, relative paths) a few calls will not cover.", "anchors": ["nxt/remote/contexts.py:16-74", "nxt/remote/server.py:66-152", "nxt/__init__.py:63-138", "nxt/cli.py:172-226"]}
{"id": "C122", "title": "The recorded server address", "statement": "Clients read back the very host and port the server recorded; without a complete record they use the default address.", "quantifier": "all ports, all file contents", "why_tests_cant": "Ports are chosen by the system; partial records occur only in a race.", "anchors": ["nxt/remote/__init__.py:9-26", "nxt/remote/server.py:175-184"]}
{"id": "C123", "title": "Log handlers", "statement": "After set_verbosity(n) a record is shown on stderr once if it is of level DEBUG (n above 1) or EXECINFO (n = 1) or higher, and not at all for n = 0; a record is written to a session log exactly once while the log is open and not otherwise; sockets are sent it once per request", "quantifier": "every value of NXT_VERBOSE, every sequence of set_verbosity, make_session_log and stop_session_log calls, every record level", "why_tests_cant": "handlers are global and survive between calls; tests call set_verbosity at most once and never look at the handlers afterwards", "anchors": ["nxt/nxt_log.py:152-213", "nxt/nxt_log.py:216-275"]}
{"id": "C124", "title": "Changing an instance path composes like composing anew", "statement": "After set_node_instance_path the bases of every composite node, and so every attribute of the user, are those of composing the changed graph from scratch: the specs, the nearest node above unless it is the instance source or above it, and the instance source.", "quantifier": "all node tables, all namespaces and depths, all old and new instance paths, all composing orders", "why_tests_cant": "The result depends on the method resolution order of the classes, on the order of composing and on the history of changes; tests set a few paths in small graphs.", "anchors": ["nxt/stage.py:1490-1549", "nxt/stage.py:2853-2988", "nxt/stage.py:3186-3289", "nxt/stage.py:3372-3406"]}
{"id": "C125", "title": "Errors in node code are located", "statement": "When a line of the code of a node raises, the error reported names that node, the number of the line in its resolved code counted from 1, and the text of the line.", "quantifier": "all nodes, codes, lines, states of the runtime layer; normal and custom code; nodes executing other nodes at any depth", "why_tests_cant": "Tests look at single failing nodes; line arithmetic, custom code and errors after nested executions need all positions and all nestings.", "anchors": ["nxt/runtime.py:62-105", "nxt/stage.py:2327-2361", "nxt/stage.py:4058-4125"]}
{"id": "C126", "title": "Node code which executes other nodes", "statement": "When node code calls execute, the called nodes run to their end before the code goes on; ExitGraph and errors end everything unless caught; and the calling code goes on as before the call: self is its own frame, its values are pushed to its own node, its variables are its own, the layer is marked as running and every run gets its times.", "quantifier": "all graphs, codes, depths of nesting, ways to end; recursion included", "why_tests_cant": "The interplay of nested runs sharing one console has unboundedly many shapes; tests only use execute in one place.", "anchors": ["nxt/stage.py:3793-3847", "nxt/stage.py:3986-3995", "nxt/stage.py:4058-4125", "nxt/nxt_layer.py:994-1024"]}
{"id": "C127", "title": "The order of nodes in a file does not matter", "statement": "Two stages whose layers hold the same nodes, only listed in another order, compose to the same: either both fail or both succeed, with the same nodes, each taking from the same nodes, and with the same value of every attribute.", "quantifier": "for all layers, all permutations of the nodes of each layer, all nodes and attributes", "why_tests_cant": "The composition assigns base classes node by node in the listed order and relies on Python's C3 linearisation; there are factorially many orders, and whether the order is visible depends on how instances and parents cross.", "anchors": ["nxt/stage.py:3103-3183", "nxt/stage.py:3408-3430", "nxt/stage.py:3364-3406", "nxt/stage.py:2678-2757"]}
{"id": "C128", "title": "A stage saved and opened again composes to the same", "statement": "If every layer of a stage is saved and loaded again, the stage made of the loaded layers has the same nodes, each taking from the same nodes as before, with the same value of every attribute that JSON can hold, and the same enabled state, comment and code.", "quantifier": "for all stages with any number of layers and nodes, all nodes and all attributes", "why_tests_cant": "Saving drops falsy values, reorders nodes and loses part of the world node, and composition depends on all three; only a statement about saving, loading, layering, instancing and inheritance together excludes that they combine badly.", "anchors": ["nxt/nxt_layer.py:165-196", "nxt/nxt_node.py:101-162", "nxt/nxt_node.py:239-287", "nxt/stage.py:2678-2757", "nxt/stage.py:3103-3183"]}
{"id": "C129", "title": "Diverging instances are reported", "statement": "A node is reported to diverge exactly if, for a node above it, one of the given layers names another instance path than the composite node does; if nothing is reported, the layers alone would give every node above the same instance path.", "quantifier": "for all composite stages, lower layers, node paths of any depth", "why_tests_cant": "Every combination of ancestors, layers and presence of instance paths decides the answer, and the warning is only logged in one branch of an edit.", "anchors": ["nxt/stage.py:2150-2192", "nxt/stage.py:3018-3030"]}
{"id": "C130", "title": "The server waits exactly while a socket command is processed", "statement": "Each command from the server is bracketed by wait messages: all work is done while the server has been told to wait, and when the command is over, also by an exception, the server has been told to wait no longer; opening and closing the connection in any order leaves one log handler while open and none otherwise; logging always ends.", "quantifier": "all commands, all client states, all failures of the work, all sequences of opening and closing", "why_tests_cant": "Which step raises, which state the client was left in by earlier failures and nested waits combine; tests have no server.", "anchors": ["nxt/remote/nxt_socket.py:83-228", "nxt/remote/nxt_socket.py:230-311"]}
{"id": "C131", "title": "Plugins are loaded once, the user's first, and their tokens found in that order", "statement": "Each module that some plugin directory offers is loaded exactly once, from the first directory offering it (user, site, built in); loading again loads nothing; a token goes to the first plugin claiming it; a file token gives the first entry of the file list with the same content, and a path token the file a file token finds.", "quantifier": "all directories, files, modules, tokens, depths and file roots", "why_tests_cant": "Name clashes across directories, repeated loading, hidden files and fall back through layers and roots multiply; the tests use one plugin and one set of roots.", "anchors": ["nxt/plugin_loader.py:15-32", "nxt/tokens.py:18-36", "nxt/stage.py:1841-1858", "nxt/plugins/file_fallbacks.py:35-130", "nxt/plugins/file_fallbacks.py:227-280"]}
{"id": "C132", "title": "Opposite edits of a layer cancel", "statement": "In a consistent layer, renaming a node to an unused name and renaming it back, moving a node below another node and moving it back, adding a node and deleting it, and deleting a node and adding it again each leave every path assigned to the node it was assigned to before, in both tables; a rename and the rename back leave the child order of the parent as it was; moving away and back should do so as well.", "quantifier": "All consistent layers, all nodes in them, all unused target paths, all trees below the node", "why_tests_cant": "Tests try one rename in one small graph; the claim ranges over all layers and all subtrees, and the relocation of every descendant has to be inverted", "anchors": ["nxt/stage.py: parent_nodes", "nxt/stage.py: set_node_name", "nxt/stage.py: add_node", "nxt/stage.py: delete_node"]}
{"id": "C133", "title": "Merging the namespaces of instances", "statement": "namespace_merger(source, target) keeps the target and appends what it lacks of the source: the last name if the target ends with the inner names of the source, else the names beyond the target (longer source) or all but the first (shorter source); with equal lengths the source takes over where the namespaces first differ; the result always begins where the target begins and ends where the source ends.", "quantifier": "All pairs of namespaces", "why_tests_cant": "The test suite has fourteen real world pairs; the loops rewrite the result in place and only an argument about all positions shows which of the turns can have an effect", "anchors": ["nxt/stage.py: namespace_merger"]}
{"id": "C134", "title": "The ancestors of a node", "statement": "In a well formed layer, ancestors() of a node gives exactly the nodes of the layer whose paths are proper prefixes of the node's path, the nearest first, passing over missing ones, in every return type; the topmost node is the last of them; a path without a node is an error.", "quantifier": "All well formed layers, all nodes, chains of any depth with any nodes missing", "why_tests_cant": "Tests use complete chains of two or three nodes; the property is about chains of every depth with gaps", "anchors": ["nxt/nxt_layer.py: ancestors", "nxt/stage.py: get_top_node"]}
{"id": "C135", "title": "The execution cursor", "statement": "For every execution order and current node, next_node is the node after it and prev_node the one before it, and both are inverse to each other inside of the order; outside of the order there is neither.", "quantifier": "All execution orders, all places in them", "why_tests_cant": "Boundary places of orders of any length; the code is not called by any test", "anchors": ["nxt/stage.py: next_node", "nxt/stage.py: prev_node"]}
{"id": "C136", "title": "Converting a whole file keeps its data", "statement": "Opening an old file runs the converters from its version on and gives data with the same values for every key path (apart from the documented changes), a converted file is not changed by a further conversion, and the command line converter changes no file but the one it writes to, which with replace is the file given.", "quantifier": "for all files and all versions", "why_tests_cant": "There are converters for three versions whose composition depends on the version found, on arbitrary nested data, and on the shape of the file name; samples exercise single files.", "anchors": ["nxt/legacy.py:19-102", "nxt/legacy.py:262-366", "nxt/legacy.py:573-601"]}
{"id": "C137", "title": "The order of execution does not depend on the order of the nodes", "statement": "If every node lists all of its children in its child order, and no two root nodes execute after the same root, then the order of execution from any node is determined by the child orders, the execute_in values and the enabled states: two tables which agree on these give the same order, in whatever order the nodes stand in the layer. With at most one start point, executing without a given start also runs the same nodes.", "quantifier": "for all pairs of well formed node tables agreeing on paths, child orders, execute_in and enabled states, all child caches, fuels, starts, runners", "why_tests_cant": "Tests compare the order for a single layout of a file; the claim is about all orders in which the nodes may have been created or loaded.", "anchors": ["nxt/nxt_layer.py:568-626", "nxt/nxt_layer.py:267-409", "nxt/nxt_layer.py:456-464", "nxt/stage.py:3776-3791"]}
{"id": "C138", "title": "A graph saved and opened again executes the same nodes in the same order", "statement": "For tidy layers (well formed nodes with all internal attributes, parents present and listing their children, the world neither an instance nor switched): what is saved loads again as tidy layers; if both compositions succeed and no two roots execute after the same one, the order of execution from any node is the same before and after; with one start point so is the default execution. If what is instanced is plain, both do compose.", "quantifier": "for all lists of tidy layers, builtin names, node orders, compositions, child caches, start nodes, runners", "why_tests_cant": "Tests save one file and compare; the claim is about every graph and every order in which its nodes were made, through saving, loading, completing child orders, composing and ordering.", "anchors": ["nxt/nxt_layer.py:156-189", "nxt/nxt_layer.py:568-626", "nxt/nxt_layer.py:917-926", "nxt/stage.py:2678-2757", "nxt/stage.py:3103-3183", "nxt/stage.py:3776-3791"]}
{"id": "C139", "title": "Mute and solo overrides of a whole stage", "statement": "An override set on a layer for a file path decides the state of every layer of that path at or below it, leaves layers of other paths and the other state alone, and does not reach layers beside it; muting a path through the top layer takes exactly the layers of that path out of the active layers, soloing leaves exactly the soloed ones; saving all layers and opening the stage again gives the same states. The small override dicts are shared between layers and changed in place, so that this depends on which layers hold entries already.", "quantifier": "for all stages reachable by loading layers and setting overrides, all layers, paths, states", "why_tests_cant": "The result depends on the tree of layers, on which of them hold entries, and on which entries are the same object after earlier edits; tests set one override on one layer.", "anchors": ["nxt/nxt_layer.py:628-662", "nxt/nxt_layer.py:867-869", "nxt/nxt_layer.py:1071-1112", "nxt/nxt_layer.py:1146-1153", "nxt/nxt_layer.py:110-130"]}
{"id": "C140", "title": "A graph saved and opened again computes the same values", "statement": "For tidy layers whose attribute values are such as a file can hold: executing the graph which was saved and opened again on the same nodes ends the same way, runs the same nodes with the same outcomes, and leaves every node with the same attribute values and the same globals as executing the original, in whatever order the nodes are found, if what texts and code resolve to follows from the values and code of the nodes by path. If what is instanced is plain and no two roots execute after the same one, both graphs compose and from any node the same nodes are executed.", "quantifier": "for all lists of tidy layers with storable values, builtin names, node orders, compositions, environments, code, lists of nodes, clocks, globals", "why_tests_cant": "Tests run one saved file and compare one result; the claim is about every graph, every code and all values flowing between nodes during the execution.", "anchors": ["nxt/stage.py:4058-4125", "nxt/stage.py:3820-3847", "nxt/nxt_layer.py:1093-1191", "nxt/nxt_node.py:300-400", "nxt/stage.py:3205-3400"]}
{"id": "C141", "title": "A runtime layer starts with its parameters, its paths and the globals of the world's code, and nodes add only the globals they declare", "statement": "When a composed layer is made a runtime layer, the table of every node has, for each attribute, the parameter given for it, its path, or what it had before; the code of the world runs after the parameters are set, finds exactly the documented names, and everything it leaves in the globals is there for the nodes. Inheritance between nodes does not change. After an execution a global name was left by the world's code or is declared global by a node which was run; names nobody changes keep their values. Leaving the world's code early lets the nodes run.", "quantifier": "for all graphs, parameters, code of the world and of the nodes", "why_tests_cant": "The claim is about every graph, set of parameters and behaviour of the code; a test runs one graph with one set of parameters.", "anchors": ["nxt/stage.py:3956-4012", "nxt/stage.py:3793-3847", "nxt/stage.py:3930-3954", "nxt/stage.py:4058-4142", "nxt/nxt_layer.py:480-500"]}
{"id": "C142", "title": "References are read with the values of the moment during an execution", "statement": "When the nodes of a runtime layer are run, the references in the texts of a node's attributes are replaced with the values the attributes referred to have at this moment: what the last run wrote there, else what was there at the start (inherited values included). A text which is exactly one reference passes the value referred to on unchanged.", "quantifier": "all runtime layers, environments, orders of execution, codes which keep the attributes of their node, and attribute texts made of unnested references", "why_tests_cant": "Tests run a few graphs with a few references; the claim ranges over all orders of execution, all histories of writes and all inheritance orders, with values resolved and read as literals in between.", "anchors": ["nxt/stage.py:4058-4142", "nxt/stage.py:2212-2260", "nxt/stage.py:1860-1937", "nxt/stage.py:1676-1706"]}
{"id": "C143", "title": "A stage with instances composed from beginning to end", "statement": "For layers whose instances are separate (no instance above, at or below an instanced node; a node kept below an instance has no instance path and stands for a path with nothing below it; every instance path means a path), the three passes comp_pre_proxies, comp_proxies and post_proxy_comp succeed on one composite layer, and their outcome is a closed form of the layers alone. The nodes are the nodes of the layers and one copy for every node below an instanced node. A user attribute of a plain node is that of the nearest node of its lineage which has it in any layer, the strongest layer first. An instance, a copy or a node kept below an instance looks first through the part of its lineage which is not above its source and then through the lineage of the source. Enabled state, comment and code are those of the strongest layer with an opinion on the node, and otherwise those of the source. A copy has the same attributes as what it copies.", "quantifier": "all layers with separate instances, any number of layers, nodes and instances, any depth", "why_tests_cant": "The three passes share mutable nodes: a spec made for a proxy, an instance path written back, a child order or a class base added in one pass is read by the next. Tests compare a few composed files; that no pass disturbs what another reads, for every graph, needs an invariant over all of them.", "anchors": ["nxt/stage.py:2655-2669", "nxt/stage.py:2990-3058", "nxt/stage.py:3060-3101", "nxt/stage.py:3139-3189"]}
{"id": "C144", "title": "The layers a build takes and what muted ones leave behind", "statement": "build_stage composes exactly the contributing layers: those from from_idx on which are soloed, or, with none soloed, not muted. The working directory and path of the composite layer are those of the strongest of them. Muting layers composes the same nodes as a stage without those layers, and a layer which does not contribute leaves nothing in the composite layer. Asked for the world only, the composition has the world alone, with the attributes, enabled state, comment and code it has in the whole composition. Any other node paths and an empty stage are refused.", "quantifier": "all lists of layers with any muting and soloing, any from_idx, all separate instances for the world build", "why_tests_cant": "Muting, soloing and the range combine freely and the strongest contributing layer may be any of them; tests mute one layer of one file and compare nodes, not positions, collapse states or directories.", "anchors": ["nxt/stage.py:2607-2655", "nxt/stage.py:2616-2625", "nxt/stage.py:2628-2638", "nxt/stage.py:2640-2651"]}
{"id": "C145", "title": "A stage with instances composes the same when reordered, or saved and opened again", "statement": "Composing layers with instances gives the same nodes, those copied from instance sources included, each with the same user attributes and the same enabled state, comment and code, in whatever order the layers keep their nodes. After every layer was saved and opened again the composed stage has the same nodes, each attribute with what a file keeps of its value.", "quantifier": "every list of layers with separate instances; every reordering of the nodes of each layer; every way the listings of children and the comparison of paths may go; enough rounds", "why_tests_cant": "The copies are made in rounds over a dictionary whose order depends on the files, and a round trip changes that order; tests see a few graphs in one order.", "anchors": ["nxt/stage.py:2607-2669", "nxt/stage.py:2990-3101", "nxt/nxt_layer.py:165-196", "nxt/nxt_node.py:101-162", "nxt/nxt_node.py:239-287"]}
{"id": "C146", "title": "The source of an attribute is where its value stands", "statement": "In a composed stage the source of every user attribute of every node names a layer and a path at which that layer has a node with the very value the composed node has, copies made from instance sources included; the layer found by following the source is that layer. An attribute the node has not has no source. The data shown of an attribute are its own value, comment, type and source.", "quantifier": "every list of layers whose attributes are signed (as every layer is after being refreshed), with separate instances; every node path and user attribute name; enough rounds", "why_tests_cant": "Sources are separate attributes which go through inheritance on their own, so a source can come from another class than the value; that they agree depends on every layer having either both or neither, which is an invariant of all nodes.", "anchors": ["nxt/nxt_layer.py:178-184", "nxt/stage.py:1587-1606", "nxt/stage.py:1708-1747", "nxt/nxt_node.py:101-162"]}
{"id": "C147", "title": "Values edited in a composed stage with instances are those of composing anew", "statement": "After any history of attribute edits in specs of any layers (adding, deleting, renaming, setting values, comments or types of attributes) the composed stage, instances and their copies included, has the nodes and for every user attribute the value, comment, type and source which composing the edited layers anew would give, and the sources still lead to the values. The enabled state, comment and code of nodes are also alike.", "quantifier": "every list of layers with separate instances; every history of attribute edits through specs of any layer; every node path and attribute; enough rounds", "why_tests_cant": "An edit changes one class dictionary and the rest follows through the method resolution order of all composite classes; that this equals a full recomposition for every graph and history is an invariant over the whole stage, which single examples do not show.", "anchors": ["nxt/stage.py:1175-1280", "nxt/stage.py:1406-1488", "nxt/stage.py:3720-3746", "nxt/stage.py:3873-3884", "nxt/stage.py:3103-3183"]}
{"id": "C148", "title": "An instance executes the copies of what its source executes", "statement": "The children of an instance, and of every node copied below it, are those of the node it stands for and those the layers list for it, each once; where the layers list none of the same names, the own ones come first and then the source's in their order. An instance without nodes of its own has the descendants of its source in the same order, with the same code and enabled state, and executing it runs the copies of just the nodes which executing the source runs, in the same order.", "quantifier": "every list of layers with separate instances, every instance and node below it; enough rounds; every listing of children", "why_tests_cant": "Child orders of instances are merged when proxies are made, enabled states go through parents and inheritance, and the order of execution walks the result; that all this mirrors the source holds for trees of any depth.", "anchors": ["nxt/stage.py:2990-3101", "nxt/nxt_node.py:319-382", "nxt/nxt_layer.py:423-480", "nxt/nxt_layer.py:568-626"]}
{"id": "C149", "title": "A stage with instances executes the same when saved and opened again", "statement": "After every layer was saved and opened again, the composed stage with its instances executes, from any given node or from the start point, the same nodes in the same order.", "quantifier": "every list of layers with separate instances and child orders of real nodes, no two nodes executing after the same root, one start point; every node to start from", "why_tests_cant": "The file keeps nodes in another order than the layer had, proxies are made in rounds over that order, and the order of execution depends on the composed child orders and on the order of dictionaries; round trips of a few graphs do not cover this.", "anchors": ["nxt/stage.py:2607-2669", "nxt/stage.py:2990-3101", "nxt/nxt_layer.py:156-189", "nxt/nxt_layer.py:568-626", "nxt/stage.py:3776-3791"]}
{"id": "C150", "title": "A stage with instances saved and opened again computes the same values", "statement": "After every layer was saved and opened again, executing the composed stage from any node runs the same nodes with the same outcomes and leaves every node, the copies below instances included, with the values it would have had, and the globals too.", "quantifier": "every list of layers with separate instances whose values a file can hold; every node to start from; every behaviour of node code which looks names up", "why_tests_cant": "Values pass from node to node through class attributes along the resolution orders of a composition which is made anew in another order; that nothing of this shows in the results is a relation between two whole runs.", "anchors": ["nxt/stage.py:2607-2669", "nxt/stage.py:2990-3183", "nxt/stage.py:3820-3847", "nxt/nxt_layer.py:568-626", "nxt/runtime.py:1-60"]}
{"id": "C151", "title": "Chains of references during an execution", "statement": "When a node is run, a text of one of its attributes is given to its code as what the text reads as by the values all attributes have at that moment: a reference to a text is replaced by what that text reads as at its own node, a reference may be put together from other references, and file and contents tokens are read as well. A value passed on through any number of references arrives unchanged if its str is its literal.", "quantifier": "For all graphs, orders of execution, codes, chains of references of any length and nesting of any depth.", "why_tests_cant": "Tests use one or two references in a fixed graph; chains have no bound, and which values they end at depends on everything executed before.", "anchors": ["nxt/stage.py:1860-1892", "nxt/stage.py:1894-1937", "nxt/stage.py:1676-1706", "nxt/stage.py:2219-2247"]}
{"id": "C152", "title": "What stands behind a composed node", "statement": "The base classes of a composed node are, in this order, the specs of the layers that have the node (strong to weak), its parent unless that already comes with its source, and the node it is an instance of; get_bases_arc_dict files each of them under its arc and nothing else. get_node_spec gives the spec of the strongest layer, safe_get_node_instance the node that is instanced and its path, or nothing.", "quantifier": "For all stages with any number of layers, nodes and instances, all nodes of the composed layer, whatever texts are the same objects.", "why_tests_cant": "Tests look at a few nodes of fixed files; arcs are told from paths only, so wrong ones need particular combinations of instances, implied parents and depths.", "anchors": ["nxt/stage.py:60-119", "nxt/stage.py:1563-1580", "nxt/stage.py:3641-3649", "nxt/stage.py:3103-3183"]}
{"id": "C153", "title": "The instances found for a node are exactly the nodes which stand for it", "statement": "get_instance_targets, asked for a node of a composite layer, returns the spec of every node which stands for it, directly or through other instances, each exactly once and after the node it names, and stops within as many nested calls as there are nodes and one more; in a composed stage with instances these are the nodes composing made from it.", "quantifier": "every list of nodes and assignment of instance paths, every source which does not stand for itself; every composed stage with separate instances", "why_tests_cant": "The result depends on the whole graph of instance paths, whose depth and branching are unbounded; a sample covers a few shapes, and a loop of instances is only met by accident.", "anchors": ["nxt/stage.py:3475-3487", "nxt/stage.py:3641-3649", "nxt/stage.py:3455-3473"]}
{"id": "C154", "title": "Adding a node with the data of its children adds exactly that tree", "statement": "add_node given node data with nested children adds, below the parent, exactly one node per entry of the tree, at the path its name asks for, each reported once and before the nodes below it; every node is the one a file with its data would give, every parent lists its children in the order of the data, and nothing else in the layer changes; when names are taken, the same tree is added under other proper names at paths which were free.", "quantifier": "every layer, parent, environment and finite tree of node data, with and without fix_names", "why_tests_cant": "The trees are of any depth and width and the names are checked against a composition which is rebuilt after every node; tests try one small tree.", "anchors": ["nxt/stage.py:585-685", "nxt/nxt_node.py:101-160"]}
{"id": "C155", "title": "A pre-release file keeps its tree through the whole conversion", "statement": "Converting a pre-release file unpacks its tree: every node of the tree which its parent lists, or whose parent says nothing, is in the converted file at the path spelled by the names leading to it, with exactly what it says apart from the widget type; no other node is; the other entries of the file are kept, the entry data as meta data, through all later converters.", "quantifier": "every pre-release file of version 0.39 or later in the expected shape, with any tree of nodes", "why_tests_cant": "trees of any depth, and four converters in a row", "anchors": ["/repo/nxt/legacy.py:112-127", "/repo/nxt/legacy.py:129-162", "/repo/nxt/legacy.py:23-46"]}
{"id": "C156", "title": "Each command of the command line does what it is for", "statement": "exec executes exactly the named file with the start, context and parameters given and refuses parameters that are no file and no pairs; convert converts exactly the named file; every command does at most one thing, and that thing is what the command is for; a word is taken for a file of the old style just when it holds .nxt; -v sets the level counted and leaves an environment later processes can read.", "quantifier": "all parsed command lines, all worlds (editor there or not, which files are there), all parameter words, all texts argparse puts around a word", "why_tests_cant": "The tests run two or three command lines with exec; the old style, -gui, legacy, -r and -v are never run, and the combinations are unbounded.", "anchors": ["nxt/cli.py:37-49", "nxt/cli.py:80-147", "nxt/cli.py:150-285"]}
{"id": "C157", "title": "Aliases, colours and locks of the layers of a stage", "statement": "The alias, colour and lock seen of a layer is the entry for its path in the uppermost layer above it (or itself) having one, else its own; an override set for a layer is seen of every layer of that path and changes nothing else; taking it away shows the own label again; a layer is found by the alias seen of it.", "quantifier": "all trees of layers with one top, all tables, all layers, all labels", "why_tests_cant": "Overrides meet in chains of any depth and in any number of layers; the tests set no alias, colour or lock override.", "anchors": ["nxt/nxt_layer.py:698-818", "nxt/nxt_layer.py:1146-1162", "nxt/stage.py:204-207"]}
{"id": "C158", "title": "The text of graph files", "statement": "What json.load gives for the text json.dump writes is the value: order, characters and signs are kept; values with the same text are the same; the text holds printable ASCII and line ends only, so it does not depend on the encoding the file is opened with; no proper beginning of the text of a file is read as a file, so a save stopped half way, also by an object which cannot be written, leaves a file which is refused and not one with less in it.", "quantifier": "all values made of None, truth values, whole numbers, texts, lists and dicts, all nestings, all places to cut", "why_tests_cant": "Texts hold any characters and values nest to any depth; the place where a writer stops is arbitrary.", "anchors": ["nxt/nxt_io.py:143-145", "nxt/nxt_io.py:76-77", "nxt/legacy.py:598-600", "nxt/clean_json.py:8-27"]}
{"id": "C159", "title": "Which texts are graph files", "statement": "The reader of graph files reads exactly the texts of the JSON grammar (whole numbers only), each as the value it is written for; a text has one meaning; what is written keeps to the grammar; a file whose text is not written for a dict is refused; blanks around items do not matter.", "quantifier": "all texts, all values, all ways of writing a value: blanks, escapes, capitals in character numbers, signs", "why_tests_cant": "Files come from other programs and from hand edits, in any layout; the number of ways of writing a value has no bound.", "anchors": ["nxt/nxt_io.py:76-77", "nxt/legacy.py:585-587"]}
{"id": "C160", "title": "Keys written twice in a graph file", "statement": "A graph file of the current version in whose text keys are written twice, at any depth, is read without an error; at every place of the data is the value which is there in the text when of the entries with one key the last counts, no dict has a key twice, keys stand in the order of their first entries, and what an earlier entry with the same key says has no bearing at all. In particular two files which say different things of a node can be read alike, so the earlier node is lost without any message.", "quantifier": "for all texts of the JSON grammar, all ways into the data, all file paths", "why_tests_cant": "Tests read files the program wrote, in which no key is written twice; the loss shows only in files merged by hand or by version control, at arbitrary depth.", "anchors": ["nxt/nxt_io.py:76-77", "nxt/clean_json.py:8-27"]}
{"id": "C161", "title": "Running a graph without a session", "statement": "execute_graph refuses a call at once just if it names a context which is not registered, runs the graph in this interpreter just if no context is given, and otherwise the context named runs the graph. The last part fails for contexts registered only in the calling process and for the empty name: both pass the check, a server is started, and the server refuses them.", "quantifier": "for all lists of contexts of the caller and the server, all context names, files, start nodes and parameters", "why_tests_cant": "Tests need a second interpreter and use the built in context only, which both processes register.", "anchors": ["nxt/__init__.py:36-60", "nxt/session.py:146-187", "nxt/remote/server.py:66-92", "nxt/remote/contexts.py:44-69"]}
{"id": "C162", "title": "Texts in quotes", "statement": "w(s, n) puts the text s in the marks documented for the number n, and the result is a Python literal of s. With single marks it is one just if s has no mark, backslash or end of line, with threefold marks just if s has no backslash and no threefold mark ends it early; nothing is escaped. The numbers documented (1 to 4) each give another mark than documented, and 4 raises.", "quantifier": "for all texts, all numbers and marks", "why_tests_cant": "Tests wrap a few words; the claim is about every text, and about which texts are not literals.", "anchors": ["nxt/stage.py:4153-4170"]}
{"id": "C163", "title": "Places of registered layers", "statement": "After a layer has been registered with a stage (register_layer, new_layer) it is where it was wanted and every layer of the stage records the place it is at. In the code this holds just if the layer is registered at the end, as loading does: every layer pushed back still records its former place, one of them the same place as the new layer, and an index beyond the end is recorded as it was given.", "quantifier": "for all stages whose layers know their places, all new layers and indices", "why_tests_cant": "Tests load files, which appends; the claim is about every index and every number of layers.", "anchors": ["nxt/stage.py:2589-2605", "nxt/stage.py:349"]}
{"id": "C164", "title": "Stashed nodes", "statement": "get_stash_data never fails and gives, under its path, every node of the layer but the world and nothing else; the data of a node has just the names which are not built in, each with the value the node sees, its own before those of its base classes. The world is recognised by identity of its path: under an equal text which is another object it is stashed as well.", "quantifier": "for all layers, nodes, tables of base classes and names", "why_tests_cant": "Tests would stash a few nodes with few bases; the claim is about every chain of classes and every layer.", "anchors": ["nxt/stage.py:381-407", "nxt/nxt_layer.py:490-496"]}
