{"id": "C01", "title": "Document sync applies every edit batch in order", "statement": "When the client sends textDocument/didChange with a list of content changes, the server's text of the document afterwards equals the text obtained by applying the changes one after the other, in list order: a change without range replaces the whole text, a change with a range replaces that range of the current text.", "quantifier": "every initial text, every list of content changes (any length, any mix of ranged and full changes)", "why_tests_cant": "the batches a client may send are unbounded and the bug-prone cases are mixes (ranged edit before a full replacement, edits that move lines) that example tests do not enumerate", "anchors": ["crates/sourcepawn_lsp/src/lsp/utils.rs: apply_document_changes", "crates/sourcepawn_lsp/src/handlers/notification.rs: handle_did_change_text_document"]}
{"id": "C02", "title": "Line-index reuse during a batch of edits is invisible", "statement": "While a batch of ranged edits is applied, positions are always converted to offsets as if the line table had been rebuilt from the current text before each edit, although the server only rebuilds it when it believes it is stale.", "quantifier": "every text and every sequence of ranged edits whose ranges start no later than they end", "why_tests_cant": "the optimisation is wrong only for particular interleavings of edit positions; a test covers one interleaving", "anchors": ["crates/sourcepawn_lsp/src/lsp/utils.rs: apply_document_changes", "crates/sourcepawn_lsp/src/lsp/from_proto.rs: offset, text_range"]}
{"id": "C03", "title": "Line-ending normalisation", "statement": "Loading a text yields the same text with every CRLF pair replaced by LF and nothing else changed, and reports DOS endings exactly when the text contained a CRLF pair.", "quantifier": "every text", "why_tests_cant": "the in-place gap algorithm manipulates indices; only a proof covers every placement of CR and LF", "anchors": ["crates/sourcepawn_lsp/src/line_index.rs: LineEndings::normalize"]}
{"id": "C04", "title": "File identity in the virtual file system", "statement": "Once a path has been seen it keeps the same file id for the rest of the session, two different paths never share an id, and the path reported for an id is the path it was created for, also across deletion and re-creation of the file.", "quantifier": "every history of file-content updates and deletions", "why_tests_cant": "histories are unbounded; the property relates the first and the last event", "anchors": ["crates/vfs/src/lib.rs: Vfs::set_file_contents, alloc_file_id, file_id, file_path", "crates/vfs/src/path_interner.rs"]}
{"id": "C05", "title": "VFS contents and change log", "statement": "After any history the VFS returns for each path exactly the last contents given for it (nothing if deleted or never set), and the change log drained by the server, replayed on the previous state, tells exactly which files were created, modified or deleted; a write of identical contents produces no event.", "quantifier": "every history of set/delete/drain operations", "why_tests_cant": "quantifies over unbounded histories with draining at arbitrary points", "anchors": ["crates/vfs/src/lib.rs: Vfs::set_file_contents, take_changes, exists, file_contents, iter"]}
{"id": "C06", "title": "Analysis database follows the VFS", "statement": "After the server processed pending changes, the text the analyses see for each file is the normalised current VFS text, and the empty text if the file no longer exists.", "quantifier": "every history of file updates, with changes processed after arbitrary batches", "why_tests_cant": "coalescing of several events for one file inside a batch has order-dependent cases that examples miss", "anchors": ["crates/sourcepawn_lsp/src/global_state.rs: GlobalState::process_changes", "crates/base-db/src/change.rs: Change::apply"]}
{"id": "C07", "title": "Open editors win over the disk", "statement": "While a document is open in the client, its text in the server is the text given by the client's open/change notifications, whatever the file watcher or loader reports; and an open document is always present in the VFS so that per-open-document work cannot fail on it.", "quantifier": "every interleaving of open, change, close notifications with loader messages", "why_tests_cant": "schedules between client and file watcher are unbounded", "anchors": ["crates/sourcepawn_lsp/src/main_loop.rs: handle_vfs_msg, update_diagnostics", "crates/sourcepawn_lsp/src/handlers/notification.rs", "crates/sourcepawn_lsp/src/mem_docs.rs"]}
{"id": "C08", "title": "Workspace include/exclude decision", "statement": "A file or directory is loaded iff the longest configured include directory that is an ancestor of it is strictly longer than every configured exclude directory that is an ancestor of it (exclude wins ties), independently of the order of the lists; for files, additionally the extension must be one of the configured ones.", "quantifier": "every list of include and exclude paths and every path", "why_tests_cant": "depends on the relative order and nesting of arbitrarily many directories", "anchors": ["crates/vfs/src/loader.rs: Directories::includes_path, contains_file, contains_dir"]}
{"id": "C09", "title": "Path normalisation", "statement": "Normalising a path removes every `.` and resolves `..`, gives a path that normalising again does not change, and never climbs above the root.", "quantifier": "every path", "why_tests_cant": "paths have unbounded depth and mixing of components", "anchors": ["crates/paths/src/lib.rs: normalize_path"]}
{"id": "C10", "title": "Virtual path operations", "statement": "Joining a relative path to a virtual path resolves leading `..` segments against it or fails when they climb above the root, parent and name/extension splitting recombine to the original path, and prefix tests agree with component-wise prefixes.", "quantifier": "every virtual path and relative path", "why_tests_cant": "string slicing of unbounded inputs", "anchors": ["crates/vfs/src/vfs_path.rs: VirtualPath::join, pop, name_and_extension, starts_with"]}
{"id": "C11", "title": "Source-root partition", "statement": "A file is placed in source root i exactly when it lies under the i-th root directory, and looking up a path in a root returns the file id of exactly that path.", "quantifier": "every configuration of roots and every set of VFS files", "why_tests_cant": "root sets may overlap and nest arbitrarily", "anchors": ["crates/vfs/src/file_set.rs: FileSetConfig::partition, FileSet::insert, resolve_path", "crates/base-db/src/input.rs"]}
{"id": "C12", "title": "Applying changes never aborts the server", "statement": "Processing pending file changes never reads an unset database input, whatever files the client opens or the loader reports.", "quantifier": "every history of events, including files outside every configured root", "why_tests_cant": "the failing cases depend on combinations of root configuration and event coalescing", "anchors": ["crates/base-db/src/change.rs: Change::apply", "crates/sourcepawn_lsp/src/global_state.rs: process_changes"]}
{"id": "C13", "title": "Project membership is include reachability", "statement": "The set of files of the project rooted at a file is exactly the set of files reachable from it through resolved includes (including itself), and computing it terminates also for cyclic includes.", "quantifier": "every include graph", "why_tests_cant": "graphs are unbounded and may be cyclic", "anchors": ["crates/base-db/src/graph.rs: Graph::dfs, find_subgraph, find_subgraphs"]}
{"id": "C14", "title": "Every known file belongs to a project", "statement": "For each known file the server finds a project containing it; the chosen project is rooted at a .sp file whenever some .sp root reaches the file.", "quantifier": "every include graph and file", "why_tests_cant": "ranges over all graphs including cyclic ones", "anchors": ["crates/base-db/src/graph.rs: find_roots, projet_subgraph_query"]}
{"id": "C15", "title": "Project roots are the files nobody includes", "statement": "The roots of the include graph are exactly the nodes without incoming edges.", "quantifier": "every include graph", "why_tests_cant": "ranges over all graphs", "anchors": ["crates/base-db/src/graph.rs: find_roots"]}
{"id": "C16", "title": "Include resolution order", "statement": "A quoted include resolves to the file relative to the including file if it exists, otherwise (and for chevron includes) to the first source root that has it; the extension .inc is appended iff the name ends neither in .sp nor .inc, and inferring the extension again changes nothing.", "quantifier": "every include text and every arrangement of source roots", "why_tests_cant": "unbounded names and roots", "anchors": ["crates/base-db/src/include.rs: file_includes_query, infer_include_ext", "crates/base-db/src/lib.rs: resolve_path, resolve_path_relative_to_roots"]}
{"id": "C17", "title": "Cyclic includes do not hang preprocessing", "statement": "Preprocessing a file terminates when files include each other cyclically: no file is being preprocessed twice on one include chain.", "quantifier": "every finite set of files and include relation", "why_tests_cant": "needs an argument over every include graph", "anchors": ["crates/preprocessor/src/db.rs", "crates/preprocessor/src/lib.rs: process_include_directive"]}
{"id": "C18", "title": "Conditional compilation selects the right branch", "statement": "For every well-nested arrangement of #if/#elseif/#else/#endif, the tokens that take part in compilation are exactly those in branches whose condition is the first true one of their chain, with all enclosing branches selected.", "quantifier": "every nesting of conditional blocks and every valuation of conditions", "why_tests_cant": "nesting depth and chain length are unbounded", "anchors": ["crates/preprocessor/src/lib.rs: process_if_directive, process_else_directive, process_endif_directive, process_negative_condition"]}
{"id": "C19", "title": "Preprocessing keeps line numbers", "statement": "The preprocessed text has exactly the same number of lines as the source, so that a line number in one is the same line in the other.", "quantifier": "every token stream of a source file", "why_tests_cant": "every directive contributes its own bookkeeping; holds or fails only in combination", "anchors": ["crates/preprocessor/src/lib.rs: preprocess_input, process_directive, process_negative_condition, result"]}
{"id": "C20", "title": "#if expressions are evaluated with the documented precedence", "statement": "Evaluating the tokens of a condition gives the value of the expression they denote: unary operators bind tightest, binary operators are left associative with the C precedence order used by the compiler, parentheses group, values are 32-bit integers, and the condition is true iff the value is non-zero.", "quantifier": "every expression built from integer literals, true/false, unary and binary operators and parentheses", "why_tests_cant": "expressions are unbounded; shunting-yard bugs show only for particular operator nestings", "anchors": ["crates/preprocessor/src/evaluator.rs: IfCondition::evaluate", "crates/preprocessor/src/preprocessor_operator.rs: process_op, priority"]}
{"id": "C21", "title": "Condition evaluation terminates", "statement": "Evaluating a #if condition finishes for every sequence of tokens the user may type.", "quantifier": "every token sequence", "why_tests_cant": "non-termination cannot be observed by a test that stops", "anchors": ["crates/preprocessor/src/evaluator.rs: IfCondition::evaluate", "crates/preprocessor/src/macros.rs: expand_identifier"]}
{"id": "C22", "title": "Condition evaluation never panics", "statement": "Evaluating a #if condition reports an error for a malformed condition and never aborts.", "quantifier": "every token sequence", "why_tests_cant": "panicking inputs are isolated points in an unbounded space", "anchors": ["crates/preprocessor/src/preprocessor_operator.rs: process_op", "crates/preprocessor/src/evaluator.rs"]}
{"id": "C23", "title": "Macro expansion terminates", "statement": "Expanding a macro use finishes for every set of macro definitions, including directly and mutually recursive ones.", "quantifier": "every macro table and token stream", "why_tests_cant": "non-termination is not observable by finite tests", "anchors": ["crates/preprocessor/src/macros.rs: expand_identifier"]}
{"id": "C24", "title": "Object-like macros expand to their full definition", "statement": "A use of an object-like macro is replaced by its body with all macros inside it replaced in turn.", "quantifier": "every acyclic macro table of any nesting depth", "why_tests_cant": "the nesting depth is unbounded; the implementation has a depth cap", "anchors": ["crates/preprocessor/src/macros.rs: expand_identifier, expand_non_macro_define"]}
{"id": "C25", "title": "A function-like macro name without arguments leaves the tokens alone", "statement": "If a function-like macro's name is not followed by an argument list, the name and the tokens that follow appear in the output unchanged and in their original order.", "quantifier": "every token sequence following the name", "why_tests_cant": "ordering errors depend on what follows (comments, other macros)", "anchors": ["crates/preprocessor/src/macros.rs: collect_arguments, expand_identifier"]}
{"id": "C26", "title": "Macro arguments are split at top-level commas", "statement": "The arguments of a macro call are the token sequences between the outermost parentheses separated by commas that are not nested in parentheses, brackets or braces, and the call consumes exactly up to its closing parenthesis.", "quantifier": "every balanced argument list", "why_tests_cant": "nesting is unbounded", "anchors": ["crates/preprocessor/src/macros.rs: collect_arguments"]}
{"id": "C27", "title": "Macro parameters are substituted by position", "statement": "In the expansion of a function-like macro call, every %n of the body is replaced by the argument given for the parameter declared as %n, all other body tokens are kept in order.", "quantifier": "every body, parameter list and argument list", "why_tests_cant": "unbounded bodies and arguments", "anchors": ["crates/preprocessor/src/macros.rs: expand_macro"]}
{"id": "C28", "title": "Grey-out ranges are exactly the skipped lines", "statement": "The ranges reported as inactive code cover exactly the source lines skipped by conditional compilation, consecutive lines being merged.", "quantifier": "every set of skipped lines", "why_tests_cant": "merging is order-dependent over unbounded lists", "anchors": ["crates/preprocessor/src/lib.rs: get_inactive_ranges"]}
{"id": "C29", "title": "Position mapping between source and preprocessed text", "statement": "A cursor position outside macro uses is translated to the preprocessed text and a resulting range translated back lands on the original position.", "quantifier": "every line, every set of macro uses on it, every position", "why_tests_cant": "sums of signed offsets over unbounded lists", "anchors": ["crates/ide/src/lib.rs: u_pos_to_s_pos, s_range_to_u_range", "crates/preprocessor/src/offset.rs"]}
{"id": "C30", "title": "Every request is answered exactly once", "statement": "Each request the client sends gets exactly one response, whether its handler succeeds, fails, panics, has unparsable parameters, is unknown, or is cancelled by an edit and retried.", "quantifier": "every interleaving of requests, worker completions, cancellations and retries", "why_tests_cant": "schedules are unbounded", "anchors": ["crates/sourcepawn_lsp/src/dispatch.rs: RequestDispatcher", "crates/sourcepawn_lsp/src/global_state.rs: respond, register_request", "crates/sourcepawn_lsp/src/main_loop.rs: on_request, handle_task"]}
{"id": "C31", "title": "Requests after shutdown are rejected", "statement": "After the client's shutdown request was accepted, every later request is answered with InvalidRequest and its handler is not run.", "quantifier": "every request sequence", "why_tests_cant": "unbounded histories", "anchors": ["crates/sourcepawn_lsp/src/main_loop.rs: on_request"]}
{"id": "C32", "title": "Background operations run one at a time and no request is lost", "statement": "At most one instance of a queued background operation runs; every request made while one runs leads to another run started after that request; requests are coalesced into the latest.", "quantifier": "every interleaving of requests, starts and completions", "why_tests_cant": "schedules are unbounded", "anchors": ["crates/sourcepawn_lsp/src/op_queue.rs: OpQueue"]}
{"id": "C33", "title": "Published diagnostics match the server's collection", "statement": "After each turn of the event loop the diagnostics last published to the client for each file are those the server currently holds for it.", "quantifier": "every history of compiler diagnostics, clears and native diagnostics updates", "why_tests_cant": "early-outs (equal diagnostics, de-duplication) are history dependent", "anchors": ["crates/sourcepawn_lsp/src/diagnostics.rs: DiagnosticCollection", "crates/sourcepawn_lsp/src/main_loop.rs: handle_event"]}
{"id": "C34", "title": "Compiler diagnostics belong to the latest run", "statement": "Between the start of a compiler run and its finish or cancellation exactly the diagnostics of that run are delivered; after a restart none of an older run arrive, each start is followed by exactly one finish or cancel before the next start, and the worker never fails on a missing process.", "quantifier": "every interleaving of restarts, cancels and compiler output", "why_tests_cant": "schedules are unbounded", "anchors": ["crates/flycheck/src/lib.rs: FlycheckActor::run, cancel_check_process", "crates/sourcepawn_lsp/src/main_loop.rs: handle_flycheck_msg"]}
{"id": "C35", "title": "Semantic-token deltas reproduce the new tokens", "statement": "Applying the edits of a semantic-tokens delta response to the previous token array gives exactly the new token array.", "quantifier": "every pair of token lists", "why_tests_cant": "prefix/suffix arithmetic over unbounded lists", "anchors": ["crates/sourcepawn_lsp/src/lsp/semantic_tokens.rs: diff_tokens"]}
{"id": "C36", "title": "Semantic-token encoding is lossless", "statement": "Decoding the relative encoding sent to the client gives back the absolute token ranges, types and modifiers in order.", "quantifier": "every list of tokens in document order", "why_tests_cant": "delta encoding state spans the whole list", "anchors": ["crates/sourcepawn_lsp/src/lsp/semantic_tokens.rs: SemanticTokensBuilder::push"]}
{"id": "C37", "title": "Semantic-token delta protocol", "statement": "A client that keeps the tokens of its last response and applies full or delta answers as they come always ends up with exactly the tokens the server computed for that request, also when other requests replaced or dropped the server's cache in between.", "quantifier": "every interleaving of full, delta and close events for a document", "why_tests_cant": "interleavings are unbounded", "anchors": ["crates/sourcepawn_lsp/src/handlers/request.rs: handle_semantic_tokens_full, handle_semantic_tokens_full_delta", "crates/sourcepawn_lsp/src/handlers/notification.rs: handle_did_close_text_document"]}
{"id": "C38", "title": "Messages arriving while configuration is pulled are not lost or reordered", "statement": "Messages received while the server waits synchronously for the client configuration are processed afterwards, all of them, in arrival order.", "quantifier": "every sequence of incoming messages around the configuration response", "why_tests_cant": "unbounded message sequences", "anchors": ["crates/sourcepawn_lsp/src/main_loop.rs: pull_config_sync, next_message"]}
{"id": "C39", "title": "Priming finishes only when every project was primed", "statement": "When the indexing progress reports that all projects are done, each project has actually been indexed.", "quantifier": "every number of projects and workers and every schedule", "why_tests_cant": "depends on worker scheduling", "anchors": ["crates/ide/src/prime_caches.rs: parallel_prime_caches"]}
{"id": "C40", "title": "The compiler is invoked with the configured arguments", "statement": "The command run for a check consists of the configured compiler followed by the project's root file, its include directories, the output path, --syntax-only and the configured extra arguments.", "quantifier": "every configuration", "why_tests_cant": "ranges over all configurations", "anchors": ["crates/flycheck/src/lib.rs: check_command", "crates/flycheck/src/spcomp.rs: build_args"]}
{"id": "C41", "title": "Local names resolve to the innermost visible declaration", "statement": "Inside a function body an identifier resolves to the declaration in the innermost enclosing scope that declares it, then to a parameter, and never to a declaration in a scope that does not enclose the use (in particular a loop variable is not visible outside its loop).", "quantifier": "every function body", "why_tests_cant": "bodies are unbounded trees", "anchors": ["crates/hir-def/src/body/scope.rs: compute_expr_scopes, resolve_name_in_scope", "crates/hir-def/src/resolver.rs: resolve_ident, resolver_for_scope"]}
{"id": "C42", "title": "Syntax pointers find their node again", "statement": "A pointer made from a syntax node resolves to a node with the same kind and range in the same tree.", "quantifier": "every syntax tree and node", "why_tests_cant": "trees are unbounded", "anchors": ["crates/hir-def/src/ast_id_map.rs: NodePtr::to_node"]}
{"id": "C43", "title": "Stable item ids are invertible", "statement": "Every item node recorded in a file's id table is found again under its id and different items have different ids.", "quantifier": "every syntax tree", "why_tests_cant": "trees are unbounded", "anchors": ["crates/hir-def/src/ast_id_map.rs: AstIdMap"]}
{"id": "C44", "title": "Global names resolve to a declaration", "statement": "If a name is declared in the file or another file of its project then resolving it yields one of its declarations; if it is declared nowhere nothing is returned.", "quantifier": "every set of declarations and files", "why_tests_cant": "combinations of duplicates over files are unbounded", "anchors": ["crates/hir-def/src/resolver.rs: resolve_ident, file_def_maps", "crates/hir-def/src/db.rs: DefMap::declare"]}
{"id": "C45", "title": "Methodmap member lookup respects inheritance", "statement": "Looking up a member in a methodmap gives its own member if it declares one of that name, else the one its ancestors provide; construction uses the methodmap's own constructor if it has one; a cyclic inheritance chain is handled.", "quantifier": "every inheritance chain", "why_tests_cant": "chains are unbounded, overriding is order dependent", "anchors": ["crates/hir-def/src/data.rs: MethodmapData::methodmap_data_with_diagnostics_query, constructor"]}
{"id": "C46", "title": "Enum-struct fields map to themselves", "statement": "Asking for the definition of a field declaration of an enum struct gives that same field.", "quantifier": "every enum struct body (any order of fields and methods)", "why_tests_cant": "orders of members are unbounded", "anchors": ["crates/hir-def/src/child_by_source.rs: impl ChildBySource for EnumStructId", "crates/hir-def/src/data.rs"]}
{"id": "C47", "title": "Argument-count diagnostics", "statement": "A call is flagged exactly when its number of arguments is below the number of mandatory parameters or above the number of parameters of a callee without rest parameter, and the reported expected count is the violated bound.", "quantifier": "every parameter list and argument count", "why_tests_cant": "unbounded lists", "anchors": ["crates/hir-def/src/infer.rs: infer_expr (Call)", "crates/hir-def/src/data.rs: number_of_mandatory_parameters, number_of_parameters"]}
{"id": "C48", "title": "Macro tables hash by content", "statement": "Two equal macro tables have the same hash whatever the order in which their entries were inserted.", "quantifier": "every pair of equal maps with any internal iteration order", "why_tests_cant": "iteration orders of hash maps are unbounded", "anchors": ["crates/stdx/src/hashable_hash_map.rs"]}
{"id": "C49", "title": "Range intersection", "statement": "The intersection of two ranges contains exactly the positions contained in both, and is empty only if there is no common position.", "quantifier": "every pair of ranges and every position", "why_tests_cant": "comparisons on two coordinates have many orderings", "anchors": ["crates/syntax/src/utils.rs: intersect", "crates/syntax/src/lib.rs: range_contains_pos"]}
{"id": "C50", "title": "Position encoding negotiation", "statement": "The server picks the first encoding in the client's preference list that it supports (UTF-8 or UTF-32) and UTF-16 otherwise.", "quantifier": "every list of offered encodings", "why_tests_cant": "unbounded lists", "anchors": ["crates/sourcepawn_lsp/src/lsp/ext.rs: negotiated_encoding"]}
{"id": "C51", "title": "Recomputed diagnostics replace the old ones", "statement": "After the analysis recomputed the diagnostics of a file, the diagnostics the server holds and shows for it are the recomputed ones.", "quantifier": "every history of computations, clears and publications", "why_tests_cant": "whether an update is dropped depends on the pair of old and new diagnostics", "anchors": ["crates/sourcepawn_lsp/src/diagnostics.rs: set_native_diagnostics, are_diagnostics_equal"]}
{"id": "C52", "title": "Closed documents keep no analysis diagnostics", "statement": "After a document was closed the server holds no diagnostics of its own analysis for it until it is opened again.", "quantifier": "every interleaving of notifications, loader messages and background diagnostics jobs", "why_tests_cant": "needs a race between a background job and a notification", "anchors": ["crates/sourcepawn_lsp/src/handlers/notification.rs: handle_did_close_text_document", "crates/sourcepawn_lsp/src/main_loop.rs: handle_task, update_diagnostics"]}
{"id": "C53", "title": "Both preprocessing passes see the same macros", "statement": "The text shown for a file is produced with the same macro table that files including it are given: the macros at the end of the text pass equal the macros the include pass recorded for the file.", "quantifier": "every set of files, include relation (cycles included) and macro contents", "why_tests_cant": "The two passes treat repeated includes differently; only particular include orders reveal it.", "anchors": ["crates/preprocessor/src/db.rs:_preprocess_file_params_query", "crates/preprocessor/src/db.rs:_preprocess_file_data_query"]}
{"id": "C54", "title": "Including a file has the effect of its text", "statement": "After an include directive the macro table of the including file is the one that running the included file in place, from the current table, leaves behind; each file is included once.", "quantifier": "every set of files, include relation and macro contents", "why_tests_cant": "Depends on the combination of definitions and #undef across arbitrarily nested includes.", "anchors": ["crates/preprocessor/src/db.rs:_preprocess_file_params_query"]}
{"id": "C55", "title": "The three include resolvers agree", "statement": "For one include directive, the include graph, the preprocessor's macro import and the syntax-tree query (go to definition of an include) resolve to the same file, or all fail.", "quantifier": "every directive text and every arrangement of source roots", "why_tests_cant": "Three hand-written copies of the logic; divergence appears only for particular texts and root layouts.", "anchors": ["crates/base-db/src/include.rs:file_includes_query", "crates/preprocessor/src/lib.rs:process_include_directive", "crates/hir-def/src/db.rs:resolve_include_node"]}
{"id": "C56", "title": "The include graph is the include relation", "statement": "The include graph has exactly one edge per known file and file it includes, its nodes are the known files and what they include, the edges of a project are include edges between its files, and the projects listed for a file are exactly the roots that reach it.", "quantifier": "every set of known files and include relation", "why_tests_cant": "Quantifies over all graphs; the traversal mutates shared visited sets.", "anchors": ["crates/base-db/src/graph.rs:graph_query", "crates/base-db/src/graph.rs:find_subgraphs", "crates/ide/src/lib.rs:projects_for_file"]}
{"id": "C57", "title": "The compiler's output is understood", "statement": "A line `path(number) : severity code: message` printed by the compiler, with an absolute path, gives a diagnostic with exactly that path, zero-based line, severity, code and message; every diagnostic comes from such a line; and no line makes the reader fail.", "quantifier": "every line of output", "why_tests_cant": "lines are unbounded; the regular expression is searched anywhere in the line", "anchors": ["crates/flycheck/src/spcomp.rs: SpCompDiagnostic::try_from_line"]}
{"id": "C58", "title": "Uses of enum-struct fields lead to their declaration", "statement": "Going to the definition from a use x.f of a field of an enum struct leads to the declaration of f.", "quantifier": "every enum struct body (any order of fields and methods) with distinct member names", "why_tests_cant": "orders of members are unbounded", "anchors": ["crates/hir-def/src/infer.rs: infer_field_access", "crates/hir/src/has_source.rs: Field::source", "crates/hir-def/src/data.rs: child_source"]}
{"id": "C59", "title": "Methodmap members map to themselves", "statement": "Asking for the function declared at a node of a methodmap (its methods, constructor, accessors) gives that function and never fails, whatever the methodmap inherits.", "quantifier": "every inheritance chain over any files", "why_tests_cant": "chains and files are unbounded", "anchors": ["crates/hir-def/src/child_by_source.rs: impl ChildBySource for MethodmapId", "crates/hir/src/source_to_def.rs: to_def"]}
{"id": "C60", "title": "Names in a body are resolved in the function around them", "statement": "For a name used inside the body of a function, of a method of an enum struct or methodmap, or of a property accessor, go to definition and the features built on it look the name up among the parameters and local variables of that very function, and do not crash.", "quantifier": "all files (any number and order of top level declarations, enum structs, methodmaps with or without ancestors, properties), all positions inside bodies", "why_tests_cant": "the function is found again by its name alone; which files contain a second declaration of that name (a forward declaration, an enum next to a methodmap) is unbounded, and each test fixes one file", "anchors": ["crates/hir/src/semantics.rs:find_def", "crates/hir/src/semantics.rs:function_node_to_def", "crates/hir/src/semantics.rs:method_node_to_def", "crates/hir/src/semantics.rs:property_method_node_to_def", "crates/hir-def/src/db.rs:DefMap::get_first_from_str"]}
{"id": "C61", "title": "The summary of a file lists exactly what the file declares", "statement": "For every syntax tree of a file, the summary the server builds of it (from which global names, members, argument counts, outline and go-to-definition are answered) lists exactly the declarations of the file in source order: each function with its own parameters and no one else's, each enum with its own entries, each enum struct and methodmap with its own fields, properties and methods, each typeset and funcenum with its own signatures, then every macro; each entry leads back to the node that declares it, and building the summary never fails.", "quantifier": "every syntax tree with any nesting and number of declarations, parameters, members and macros", "why_tests_cant": "Members are kept in shared arrays and told apart only by index ranges; a test shows the ranges of the few files it contains.", "anchors": ["crates/hir-def/src/item_tree/lower.rs:Ctx::lower", "crates/hir-def/src/item_tree/lower.rs:lower_parameters", "crates/hir-def/src/item_tree/lower.rs:lower_property_method", "crates/hir-def/src/item_tree.rs:ItemTree", "crates/hir-def/src/ast_id_map.rs:AstIdMap"]}
{"id": "C62", "title": "Going to the definition of a macro leads to the #define in force", "statement": "Asking for the definition at a position of a file gives a macro only if the position lies on a name the preprocessor used as a macro, and then the answer is the #define of that name which was in force at this place (in this file the last one before it that is active, or the one of the included file), at its own place in the source; and every use in active code has an answer.", "quantifier": "every token sequence of a file, every macro table and include effect it starts from, every position, every project of files whose item trees are built from their syntax trees", "why_tests_cant": "the number of a definition is counted independently by the preprocessor, while it reads tokens, and by the item tree, while it walks the syntax tree of the output; the two must agree for every interleaving of conditionals, redefinitions, undefinitions, includes and expansions", "anchors": ["crates/ide/src/goto_definition.rs find_macro_def", "crates/hir/src/semantics.rs find_macro_def", "crates/hir-def/src/db.rs get_macro", "crates/preprocessor/src/lib.rs preprocess_input", "crates/preprocessor/src/evaluator.rs evaluate", "crates/hir-def/src/item_tree/lower.rs lower"]}
{"id": "C63", "title": "The initial scan finds exactly the files of the workspace", "statement": "For a workspace folder, the files the server loads are exactly the files below the folder, outside its .git directory, whose extension is sp or inc, each once, with the contents on disk; and a later change event for a file is accepted exactly when the scan would have loaded it. For arbitrary include and exclude lists the scan and the test agree as well.", "quantifier": "for every file tree, every folder, every list of includes, excludes and extensions, every path", "why_tests_cant": "The set of trees and of nested include and exclude lists is infinite; tests try a few trees.", "anchors": ["crates/vfs-notify/src/lib.rs: load_entry", "crates/vfs/src/loader.rs: Entry::sp_files_recursively, Directories::contains_file"]}
{"id": "C64", "title": "Loading never crashes the server, and the client learns when it is complete", "statement": "However messages from the client, configuration changes, file reads and turns of the main loop interleave, the server's assertions about progress hold; when it tells the client that it is quiescent, every file found under the latest configuration has been handed to it; when the loader has nothing left to do, the client has been told so; progress is started, reported and stopped in turn; and the threads of the server can always get there on their own.", "quantifier": "for every disk, every sequence of client messages and configuration changes and every interleaving of client, loader and main loop", "why_tests_cant": "The interleavings are unbounded; tests see the few that happen on a machine.", "anchors": ["crates/sourcepawn_lsp/src/main_loop.rs: run, handle_event, handle_vfs_msg", "crates/sourcepawn_lsp/src/reload.rs: is_quiescent, current_status, update_configuration", "crates/vfs-notify/src/lib.rs: NotifyActor::run"]}
{"id": "C65", "title": "Diagnostics are recomputed after every change", "statement": "Whenever the server is quiescent between two turns, it has started a computation of diagnostics for exactly the open documents after the last change to any file and the last opening or closing of a document.", "quantifier": "for every history of edits, openings, closings, file changes, configuration changes and loader messages, in every interleaving", "why_tests_cant": "A missed recomputation shows only for some orders of events.", "anchors": ["crates/sourcepawn_lsp/src/main_loop.rs: handle_event, update_diagnostics", "crates/sourcepawn_lsp/src/mem_docs.rs: take_changes"]}
{"id": "C66", "title": "The server's files follow the disk", "statement": "Once the client has reported every change to files on disk and everything sent has been handled, the server holds for each file that is not open exactly what is on disk, if the file was ever loaded or reported, and never holds contents for a file that are not those on disk; in particular edits discarded by closing a document are forgotten.", "quantifier": "for every sequence of writes and deletions on disk, openings, edits and closings, for every interleaving with the loader's reads and the main loop", "why_tests_cant": "Reads race with writes, edits and closings; only some interleavings are exercised by tests.", "anchors": ["crates/sourcepawn_lsp/src/handlers/notification.rs: handle_did_close_text_document, handle_did_change_watched_files", "crates/sourcepawn_lsp/src/main_loop.rs: handle_vfs_msg", "crates/vfs-notify/src/lib.rs: NotifyActor::run"]}
{"id": "C67", "title": "The server's own file watcher keeps loaded files up to date", "statement": "After an event of the operating system naming a file of a watched directory, the server holds for the file what is on disk.", "quantifier": "for every file tree, every list of watched entries, every event and every earlier history", "why_tests_cant": "Events and histories are unbounded.", "anchors": ["crates/vfs-notify/src/lib.rs: NotifyActor::run"]}
{"id": "C68", "title": "Members, methods and constructors are resolved by the type of the receiver", "statement": "In the body of a function, go-to-definition on the member of `a.x`, on the method of `a.x(...)` and on the class of `new X(...)` leads to the field, property, method or constructor that the declared type of the receiver has under that name, and an 'unknown field', 'unknown method' or 'unknown constructor' diagnostic is shown for exactly the accesses to enum structs and methodmaps that have no such member; an access that leads somewhere is never reported.", "quantifier": "every function body (nesting, chains of accesses and calls, blocks), every set of declarations in scope", "why_tests_cant": "the type of a receiver depends on arbitrarily nested expressions and on scopes; tests fix a few chains", "anchors": ["crates/hir-def/src/infer.rs:InferenceContext::infer_expr", "crates/hir-def/src/infer.rs:infer_field_access", "crates/hir-def/src/infer.rs:infer_method_call", "crates/hir-def/src/infer.rs:infer_constructor", "crates/hir/src/source_analyzer.rs:resolve_attribute"]}
{"id": "C69", "title": "Named arguments lead to the parameter of the called function", "statement": "In a call with named arguments, `.x = value` leads to the parameter x of the function, method or constructor that is called, and a diagnostic is shown for exactly those named arguments whose name is no parameter of it.", "quantifier": "every function body, however calls, constructors and method calls are nested, and every signature", "why_tests_cant": "the callee of a named argument is found through mutable state that nested calls push and pop; tests do not enumerate the nestings", "anchors": ["crates/hir-def/src/infer.rs:InferenceContext::infer_expr", "crates/hir-def/src/infer.rs:current_call_name", "crates/hir/src/source_analyzer.rs:resolve_named_arg"]}
{"id": "C70", "title": "Findings about a body are shown where they belong", "statement": "Every diagnostic of type inference for the body of a function (unknown field, method, constructor or named argument, wrong number of arguments) is shown, none is lost, and it is attached to a node of that function's syntax tree: the name of the unknown member, the class of the construction, the name of the argument, or the call in question or one of its arguments.", "quantifier": "every syntax tree of a function with any parameters and any declarations in scope", "why_tests_cant": "a body is an arbitrarily nested tree and each construct records its place separately; tests look at a few", "anchors": ["crates/hir-def/src/body/lower.rs:ExprCollector::collect", "crates/hir-def/src/body.rs:BodySourceMap", "crates/hir/src/lib.rs:Function::diagnostics"]}
{"id": "C71", "title": "Every call and access in a body is analysed", "statement": "Each call, access to a member, construction and named argument written in the body of a function is seen by type inference, with its name and as many arguments as are written, and asking for the definition at its name leads to what inference found for it.", "quantifier": "every syntax tree of a function body", "why_tests_cant": "the trees are nested without bound and every construct is lowered by its own code", "anchors": ["crates/hir-def/src/body/lower.rs:ExprCollector::maybe_collect_expr", "crates/hir-def/src/body.rs:node_expr"]}
{"id": "C72", "title": "Analysing a body does not bring the server down", "statement": "Turning the body of a function into expressions does not panic.", "quantifier": "every syntax tree of a function with its parameters", "why_tests_cant": "syntax trees of half-typed code come in all shapes", "anchors": ["crates/hir-def/src/body/lower.rs:ExprCollector::collect", "crates/hir-def/src/body/lower.rs:ExprCollector::maybe_collect_expr"]}
{"id": "C73", "title": "The compiler's output is read completely, whatever way it arrives", "statement": "When the server runs the compiler and reads its standard output and standard error at the same time, then, in whatever pieces and order the two streams become readable, each line the program wrote to a stream is handed to the callback exactly once, unbroken and in order, before the reading ends; at any moment what was handed over is a beginning of what the stream holds. The reading ends only when both streams have ended, and a stream that is readable is read.", "quantifier": "every content of the two streams, every sequence of poll results and of numbers of bytes per read", "why_tests_cant": "how the operating system cuts a stream into reads is not under the control of a test, and there are unboundedly many ways to do it", "anchors": ["crates/stdx/src/process.rs: streaming_output", "crates/stdx/src/process.rs: imp::read2", "crates/flycheck/src/lib.rs: CargoActor::run"]}
{"id": "C74", "title": "The settings in effect are those the client sent last", "statement": "Whatever JSON the client sends as settings, every setting has the value given for it if that value is valid, and its default otherwise, independently of the other settings and of earlier values; an answer that is an error or carries no settings changes nothing; a setting that is invalid is reported to the user.", "quantifier": "every JSON value, every history of answers to workspace/configuration", "why_tests_cant": "there are infinitely many JSON documents, and the fields are read destructively one after the other, so that reading one could disturb another", "anchors": ["crates/sourcepawn_lsp/src/config.rs: get_field", "crates/sourcepawn_lsp/src/config.rs: Config::update", "crates/sourcepawn_lsp/src/config.rs: ConfigData", "crates/sourcepawn_lsp/src/handlers/notification.rs: handle_did_change_configuration", "crates/sourcepawn_lsp/src/main_loop.rs: initialize"]}
{"id": "C75", "title": "Saving a file compiles its projects with the settings in effect", "statement": "When a compiler is set and compiling on save is on, saving a file starts the compiler for exactly the projects the file belongs to, with the compiler, arguments and include directories set at that time, after whatever changes of settings, files and includes; when compiling on save is off or no compiler is set, nothing is started.", "quantifier": "every history of changes of settings, files and include relations, every file", "why_tests_cant": "the workers are made at certain moments only; whether they are the right ones depends on the order of all later changes of settings and files", "anchors": ["crates/sourcepawn_lsp/src/reload.rs: reload_flycheck", "crates/sourcepawn_lsp/src/reload.rs: update_configuration", "crates/sourcepawn_lsp/src/handlers/notification.rs: run_flycheck", "crates/sourcepawn_lsp/src/handlers/notification.rs: handle_did_save_text_document", "crates/sourcepawn_lsp/src/main_loop.rs: run"]}
{"id": "C76", "title": "Everything wrong in a file is shown, at its place", "statement": "The diagnostics of a file are: one for each syntax error and each missing token anywhere in the syntax tree, one for each condition, include and macro the preprocessor could not resolve, one for each inactive range, and one for everything found in the bodies of functions and methods, and no others; each is shown at the place in the source it is about.", "quantifier": "every syntax tree, every list of findings, every line with uses of macros", "why_tests_cant": "trees are unboundedly deep, and places depend on all the macro expansions before them on the line", "anchors": ["crates/ide-diagnostics/src/lib.rs: diagnostics", "crates/ide-diagnostics/src/lib.rs: missing_nodes", "crates/hir/src/lib.rs: File::diagnostics", "crates/hir/src/lib.rs: FileDef::diagnostics", "crates/sourcepawn_lsp/src/diagnostics.rs: fetch_native_diagnostics"]}
{"id": "C77", "title": "Hovering over a macro shows its expansion", "statement": "When the user hovers over the name of a macro in the source, the range that is marked is the name, the definition that is shown is the one in force, and the text shown after 'Expands to' is the text the preprocessor has put in the place of the use: its tokens are the full expansion of the macro, in order, up to blanks, whatever other macros are used before it on the same line.", "quantifier": "every file, every set of macros, every line with any number of uses before the one hovered over, every column of the name", "why_tests_cant": "the slice of the preprocessed line depends on the changes in length of all uses before it; there are unboundedly many combinations of lengths, shorter and longer than the names", "anchors": ["crates/ide/src/hover.rs: find_macro_hover", "crates/ide/src/goto_definition.rs: find_macro_def", "crates/preprocessor/src/offset.rs: Offset"]}
{"id": "C78", "title": "Exactly the macro uses are highlighted", "statement": "A request for semantic tokens, for the whole file or for a range, is answered without failing, and what the client decodes is: each use of a macro that touches the range, with the range of its name in the source and the type 'macro', once, in the order of the source, and nothing else.", "quantifier": "every file, every set of macros, every range", "why_tests_cant": "the answer depends on all uses of the file and their order; the encoding is relative to the token before, so that one wrong range spoils or breaks all that follows", "anchors": ["crates/ide/src/syntax_highlighting.rs: highlight", "crates/sourcepawn_lsp/src/lsp/to_proto.rs: semantic_tokens", "crates/sourcepawn_lsp/src/handlers/request.rs: handle_semantic_tokens_full, handle_semantic_tokens_range"]}
{"id": "C79", "title": "The documentation shown for a declaration is the comments directly above it", "statement": "Hovering over a declaration shows the comments that stand directly above it, each on lines of its own, in the order of the source and without comment markers: from the declaration upwards every row holds a one-line comment or the one pragma of the declaration, up to and including the first comment of several rows. Comments further up, comments that belong to other code on their line and comments separated by a blank row are not shown. The text between the comment markers is shown unchanged.", "quantifier": "all declarations, all sequences of siblings before them with their rows and texts, all texts of comments", "why_tests_cant": "The loop walks an arbitrary number of siblings and its result depends on row differences, the number of pragmas and the extent of every comment; the text is changed by three regular expressions applied one after the other, which interfere only for rare texts", "anchors": ["crates/ide-db/src/documentation.rs: Documentation::from_node, comment_to_doc", "crates/ide/src/hover/render.rs"]}
{"id": "C80", "title": "Going to a definition underlines the name and leads to the name of its definition", "statement": "When the position is anywhere on a name that has a definition, the answer of go-to-definition underlines exactly this name in the text the user sees, the target is in the file of the definition, the selected part of the target is exactly the name in the definition as the user sees it in that file, and the whole range of the target is the definition; macros that are used on the lines before the name or before the definition do not shift any of it.", "quantifier": "every pair of files, all macros, every word of the file that is a token with a definition, every column of the word, every place of the definition", "why_tests_cant": "The positions depend on the lengths of all expansions on two lines of two files and on the shape of two syntax trees; tests check a few files with no or one macro.", "anchors": ["crates/ide/src/goto_definition.rs: goto_definition, find_inner_name_range", "crates/ide/src/lib.rs: u_pos_to_s_pos, s_range_to_u_range", "crates/preprocessor/src/lib.rs: SourcepawnPreprocessor::preprocess_input"]}
{"id": "C81", "title": "A position means the same place for the client and the server", "statement": "For every request at a character of a token (hover, go-to-definition, highlighting), the server looks at that token, and the range in its answer is that token's range counted in the position encoding both sides agreed on, whatever characters are before it on the line.", "quantifier": "every line of text with any Unicode characters, every position encoding the server agrees to, every syntax tree, every token and every character of it", "why_tests_cant": "Tests use ASCII sources, where all encodings count the same; the property is about all texts and encodings.", "anchors": ["crates/sourcepawn_lsp/src/lsp/from_proto.rs: file_position", "crates/syntax/src/utils.rs: lsp_position_to_ts_point, ts_range_to_lsp_range", "crates/sourcepawn_lsp/src/lsp/ext.rs: negotiated_encoding"]}
{"id": "C82", "title": "Background work is done, once, the oldest first", "statement": "Every piece of work the server hands to its background threads (handlers of requests, diagnostics, filling of caches, starting the compiler after a save) is begun exactly once, in the order it was handed over, on a thread of the requested priority; it is finished as long as the work itself ends; shutting the pool down waits for it; and a piece of work that panics does not keep the server from doing the rest.", "quantifier": "all numbers of threads and all interleavings of handing over work, threads taking it, work ending or panicking, and dropping the pool", "why_tests_cant": "Unit tests run a few jobs on one schedule; whether a job is lost, run twice or stuck depends on the interleaving of all threads and on how many jobs panicked before.", "anchors": ["crates/stdx/src/thread/pool.rs: Pool", "crates/sourcepawn_lsp/src/task_pool.rs: TaskPool", "crates/sourcepawn_lsp/src/main_loop.rs: update_diagnostics, prime_caches", "crates/sourcepawn_lsp/src/dispatch.rs: on_with_thread_intent"]}
{"id": "C83", "title": "Answers reflect one state of the client's documents", "statement": "The answer to a request is computed from the texts that all documents open in the client had, together, at one moment between sending the request and receiving the answer; edits, cancellations and retries never mix texts of different moments; and when the client pauses, every request gets its answer, however often it was cancelled by edits before.", "quantifier": "all sequences of opening, editing and closing documents and of requests, all loader reports, all schedules of main loop and workers, all points of cancellation", "why_tests_cant": "Which texts a handler sees depends on the interleaving of the main loop, the workers and the edits in flight; tests see a few fixed schedules.", "anchors": ["crates/sourcepawn_lsp/src/main_loop.rs: handle_event, on_request, handle_task", "crates/sourcepawn_lsp/src/global_state.rs: snapshot, process_changes", "crates/sourcepawn_lsp/src/dispatch.rs: on_with_thread_intent", "crates/ide/src/lib.rs: with_db"]}
{"id": "C84", "title": "Diagnostics shown belong to the current text", "statement": "When the server has nothing left to do, the diagnostics of its own analysis that it shows for an open document were computed from the current texts of all open documents.", "quantifier": "all sequences of edits and loader reports, all schedules of main loop and workers, all points of cancellation", "why_tests_cant": "A result computed for an older text can be delivered late; only particular interleavings show it.", "anchors": ["crates/sourcepawn_lsp/src/main_loop.rs: update_diagnostics, handle_task", "crates/sourcepawn_lsp/src/diagnostics.rs: fetch_native_diagnostics", "crates/sourcepawn_lsp/src/task_pool.rs: spawn"]}
{"id": "C85", "title": "Hovering shows what the documentation says", "statement": "The text shown on hovering over a name contains, as code, the text of its definition, and below it the documentation: every character of it that is not layout, in order, and nothing else but marks of Markdown; a documentation that describes parameters, result and errors with tags is shown with each of them in a paragraph of its own and its name set off.", "quantifier": "all texts of comments, of any length and content; all classifications of characters outside of ASCII as white space or letters; all summaries, lists of tags and descriptions of any number of lines", "why_tests_cant": "Ten textual replacements are applied one after the other, each to the output of the one before; whether one of them eats or glues text of another depends on the text.", "anchors": ["crates/ide-db/src/documentation.rs: Documentation::to_markdown", "crates/ide/src/markup.rs: fenced_block", "crates/ide/src/hover.rs: hover"]}
{"id": "C86", "title": "The client is shown what the compilers do, and can stop them", "statement": "For every project, the progress of its compiler that the client sees is created, begun and ended in turn, and once the server has handled what its workers told it, it is shown exactly while a compiler of the project runs; the status of the compiler says that it is at work exactly while one runs; and when the user cancels a progress, the compiler of that project and no other is stopped and the progress disappears.", "quantifier": "all sets of projects, all sequences of saves, cancellations and changes of settings, all behaviours of the compilers, all schedules of main loop, workers and tasks", "why_tests_cant": "The order of messages depends on the schedule of several threads and processes; a test sees one order, mostly with one project.", "anchors": ["crates/sourcepawn_lsp/src/main_loop.rs: handle_flycheck_msg", "crates/sourcepawn_lsp/src/progress.rs: report_progress", "crates/sourcepawn_lsp/src/handlers/notification.rs: handle_work_done_progress_cancel", "crates/sourcepawn_lsp/src/reload.rs: reload_flycheck", "crates/flycheck/src/lib.rs: FlycheckActor::run, cancel_check_process"]}
{"id": "C87", "title": "Going to the definition from the name in a declaration leads to this declaration itself", "statement": "When the user asks for the definition while the cursor is on the name in a declaration (of a function, a global variable, an enum and its entries, an enum struct, its fields and methods, a methodmap, its methods and properties and their getters and setters, a typedef, typeset, functag or funcenum, a macro, a parameter or a local variable), the answer is this very declaration, whatever else the file declares with the same name; the request never ends in a panic.", "quantifier": "all syntax trees the grammar admits, all declarations in them, whatever methodmaps inherit", "why_tests_cant": "The way goes from a node to an id and back through five tables keyed by position and by kind; a wrong key, a missing kind or an entry overridden by another shows only for some combination of declarations, names and inheritance.", "anchors": ["crates/hir/src/semantics.rs: find_name_def", "crates/hir/src/semantics/source_to_def.rs: find_container, to_def", "crates/hir/src/semantics/child_by_source.rs: child_by_source_to", "crates/hir-def/src/src.rs: HasSource"]}
{"id": "C88", "title": "Names used outside of functions lead to their declaration", "statement": "When the user asks for the definition of a name outside of the bodies of functions (a type, a size, an initial or default value, the parent of a methodmap, the value of an enum entry, a name in the signature of a native, a forward or a type definition), the answer is a declaration of that name in the file or in its project; a name that is declared once in the project leads to this declaration; the request does not panic.", "quantifier": "all projects, all files, all places outside of bodies, all names", "why_tests_cant": "Where a name is looked up depends on the node the search stops at and on the kinds of all declarations of the name in the project; tests try a few combinations in one file.", "anchors": ["crates/hir/src/semantics.rs: find_def, source_node_to_def, typedef_node_to_def, function_node_to_def_", "crates/hir/src/lib.rs: DefResolution::try_from", "crates/hir-def/src/resolver.rs: resolve_ident"]}
{"id": "C89", "title": "The analysis and the navigation give a name the same meaning", "statement": "For an identifier in the body of a function, the declaration its type is taken from when the body is analysed (and so what the diagnostics about it rest on) is the declaration that going to the definition shows.", "quantifier": "all bodies of functions with any nesting of blocks, loops, conditions and switches, all identifiers in them, all declarations and parameters, all global names, inside and outside of members", "why_tests_cant": "the two compute the scopes around an expression in different ways, one by descending through the body and one from the offset of the cursor; tests of either use single bodies and never compare the two", "anchors": ["crates/hir-def/src/resolver.rs: update_to_inner_scope, resolver_for_scope, resolve_ident", "crates/hir-def/src/infer.rs: infer_expr", "crates/hir/src/source_analyzer.rs: new_for_body, scope_for_offset"]}
{"id": "C90", "title": "The picture of the projects shows who includes whom", "statement": "The picture of the projects that the client can ask for has a cluster for each main file; in it, there is an arrow from one file to another exactly if the first includes the second and both belong to the project of the main file; main files are marked; and there is a picture whenever all files have names.", "quantifier": "all include graphs, cyclic or not, all numbers of projects, all orders in which hash sets are iterated", "why_tests_cant": "the picture is drawn from a search through the graph whose order is that of a hash set; tests would look at single graphs", "anchors": ["crates/base-db/src/graph.rs: to_graphviz, find_subgraphs, dfs", "crates/sourcepawn_lsp/src/handlers/request.rs: handle_projects_graphviz"]}
{"id": "C91", "title": "Hovering over a name shows the declaration that going to the definition leads to", "statement": "Whatever the position, hovering shows something exactly if there is a definition to go to, and both underline the same range of the file. If the position is on a name, that range is the name, and what is shown is the text of its declaration as it is written in the file of the declaration, followed by its documentation if there may be any; over a macro the directive and the expansion are shown.", "quantifier": "all files, positions, macros in force, definitions in the same or in another file, declarations of one or more lines", "why_tests_cant": "the range and the text go through the maps of the preprocessor of two files, which depend on every macro used before the position; the code of hovering is a copy of the one of going to the definition, and tests compare only the text of a few declarations without macros", "anchors": ["crates/ide/src/hover.rs::hover", "crates/ide/src/hover.rs::find_macro_hover", "crates/ide/src/goto_definition.rs::goto_definition", "crates/preprocessor/src/result.rs::PreprocessingResult::preprocessed_text"]}
{"id": "C92", "title": "The preprocessor's complaints are the right ones", "statement": "When a file is preprocessed, it reports an unresolved include for every `#include` of the selected text whose name no file has, in order, with the name and the place of the name, and for nothing else: not for `#tryinclude`, not for a directive in a branch that is not selected. It reports a condition for every `#if` or `#elseif` condition that is asked for and has no value, on the line of the directive, and for nothing else: not for a condition in a skipped branch or after the selected one. A name is reported as unknown only in such a condition, and only if it is not a macro there.", "quantifier": "every well-nested file, macro table, profile, and every answer to the question whether an included file exists", "why_tests_cant": "The tests of the preprocessor check the text and one or two errors. Which directives are reached depends on all the conditions before them, on the macros the text before defines and on the expansions in the conditions; the place of an operator or a name that comes out of a macro body is computed from the places of the tokens before it.", "anchors": ["crates/preprocessor/src/lib.rs::process_if_directive", "crates/preprocessor/src/lib.rs::process_include_directive", "crates/preprocessor/src/evaluator.rs::IfCondition::evaluate", "crates/preprocessor/src/errors.rs", "crates/preprocessor/src/macros.rs::expand_identifier"]}
{"id": "C93", "title": "Changed settings take effect", "statement": "Whenever the user changes the settings in the client, the server comes to use them: once every message under way has been handled and every question of the server answered, the settings in effect are those the client has, in whatever order the questions were answered and however many changes overlapped; and no answer of the client, to a question for settings or to any other request of the server, brings the server down.", "quantifier": "every history of changes of settings, deliveries in both directions, answers and refusals in any order, and other requests of the server", "why_tests_cant": "several changes, questions and answers are under way at once; whether an old answer can overwrite a newer one depends on the order in which the client answers and the queues deliver", "anchors": ["crates/sourcepawn_lsp/src/handlers/notification.rs: handle_did_change_configuration", "crates/sourcepawn_lsp/src/global_state.rs: GlobalState::send_request", "crates/sourcepawn_lsp/src/global_state.rs: GlobalState::complete_request", "crates/sourcepawn_lsp/src/main_loop.rs: pull_config_sync", "crates/sourcepawn_lsp/src/progress.rs: report_progress"]}
{"id": "C94", "title": "Indexing progress shown to the client is well formed and ends", "statement": "However tasks are scheduled, grouped into turns of the main loop and coalesced, what a client that supports work-done progress is sent about indexing is a sequence of complete runs: the token is created, the progress begins, reports follow whose percentage never goes down and never exceeds 100, and it ends before another begins. No assertion of the server fails on the way. Whenever no indexing job is at work and its messages were handled, the progress shown has ended and the last job was not cancelled: a cancelled job is started again in the turn in which its end is handled.", "quantifier": "every schedule of the main loop, the indexing jobs and their workers, every grouping of the messages into turns, every cancellation, every list of projects", "why_tests_cant": "the messages of a job, the coalescing of reports and the queue of operations interleave in unboundedly many ways", "anchors": ["crates/sourcepawn_lsp/src/main_loop.rs:prime_caches,handle_task,handle_event", "crates/sourcepawn_lsp/src/progress.rs:report_progress", "crates/ide/src/prime_caches.rs:parallel_prime_caches"]}
{"id": "C95", "title": "Messages reach their handler, and the server ends when it is told to", "statement": "Whatever messages a client sends after the start, in any order and mixed with any other event: each notification of a method the server knows is handled by the handler of this method, once, in the order of arrival; other notifications have no effect; requests all go to the request dispatcher; the server ends by itself only at the notification exit, handling everything before it and nothing after it. With a client that keeps to the protocol nothing else ends the server. (A notification with malformed parameters and a response to a request never sent bring it down, and the exit status does not tell an exit without shutdown.)", "quantifier": "every sequence of messages and other events, every behaviour of the handlers", "why_tests_cant": "the chain of handlers must take every message exactly once for every method name, and the claim that nothing ends the server is about all histories", "anchors": ["crates/sourcepawn_lsp/src/main_loop.rs:run,on_notification,handle_event", "crates/sourcepawn_lsp/src/dispatch.rs:NotificationDispatcher", "crates/sourcepawn_lsp/src/global_state.rs:complete_request", "crates/sourcepawn_lsp/src/main.rs:main"]}
{"id": "C96", "title": "The outline shown of a file lists its declarations", "statement": "The answer to a request for the item tree of a file shows, in the order of the source, one entry for every declaration with its visibility, kind, type and name, and under it one entry for every parameter, field, property, method and signature it has.", "quantifier": "every syntax tree of a file", "why_tests_cant": "trees have any number of declarations nested in enum structs and methodmaps, and each kind is printed by its own code with its own indentation", "anchors": ["crates/hir-def/src/item_tree/pretty.rs: print_item_tree", "crates/ide/src/lib.rs: pretty_item_tree", "crates/sourcepawn_lsp/src/handlers/request.rs: handle_item_tree"]}
{"id": "C97", "title": "The main file told for a document is a main file of its project", "statement": "Asked for the main file of a document, the server answers with a document that no other document includes and from which the document is reached by following includes; it has an answer for every known document.", "quantifier": "every set of documents with their includes, cyclic ones too, every document, and every iteration order of the hash maps", "why_tests_cant": "include graphs are unbounded and the iteration order of hash maps is not under the control of a test", "anchors": ["crates/sourcepawn_lsp/src/handlers/request.rs: handle_project_main_path", "crates/ide/src/lib.rs: projects_for_file", "crates/base-db/src/graph.rs: find_roots, find_subgraphs"]}
{"id": "C98", "title": "Parameters and local variables are known in the body", "statement": "The parameters known in the body of a function, method or setter, and those of a typedef or functag, are exactly the parameters that are declared with a name, in the order in which they are declared. Every variable a statement of the body declares is among what is analysed, with the type that is written. The expression that stands for a parameter or variable leads back to its own declaration and to no other, and the declaration leads to it, so going to the definition of a local name ends at its declaration, also from the declaration itself.", "quantifier": "every syntax tree of a parameter list (any number of parameters, with and without names and default values) and every syntax tree of a body", "why_tests_cant": "parameter lists are unbounded, default values are arbitrary expressions whose own expressions are numbered in between; a test tries a few lists", "anchors": ["crates/hir-def/src/body/lower.rs: ExprCollector::collect, collect_parameter_declaration", "crates/hir-def/src/body.rs: BodySourceMap::expr_source, Body::body_with_source_map_query"]}
{"id": "C99", "title": "The words before a name are kept as written", "statement": "The type that is shown for a function, parameter, field or variable (in the item tree and hovers) is the one written in its declaration, with an empty pair of brackets for each dimension that is written; there is a type exactly if one is written. A function is a forward or a native, and a declaration public, stock or static, exactly if the word is written.", "quantifier": "all lists of nodes that can stand under the type, kind and visibility of a declaration, with any number and order of dimensions, names of types of any text", "why_tests_cant": "The words can stand in any order and number, and names of types are arbitrary.", "anchors": ["crates/hir-def/src/hir/type_ref.rs:TypeRef::from_node", "crates/hir-def/src/hir/type_ref.rs:TypeRef::from_returntype_node", "crates/hir-def/src/hir/type_ref.rs:TypeRef::to_str", "crates/hir-def/src/item_tree.rs:FunctionKind::from_node", "crates/hir-def/src/item_tree.rs:RawVisibilityId::from_node"]}
{"id": "C100", "title": "Going to the definition from an include directive opens the file it includes", "statement": "Going to the definition while the cursor is on the name in an `#include` or `#tryinclude` directive of compiled code opens the file that this directive includes: the same file whose declarations the include relation makes visible and whose macros the preprocessor imports for this directive. The string is what is underlined, and the target starts at the beginning of the included file. If no file is included, there is no target.", "quantifier": "all files of the class of C80 with such a directive anywhere, in quotes or in angle brackets, all known files and include directories, all places of the cursor on the name", "why_tests_cant": "Three resolutions of the same text (for the include relation, for the preprocessor, for the syntax node) are made by different code on different inputs, and the position goes through the map of expansions first; a test compares them for one directive in one workspace.", "anchors": ["crates/hir/src/semantics.rs: find_def, include_node_to_def", "crates/hir-def/src/db.rs: resolve_include_node", "crates/hir/src/lib.rs: DefResolution::source", "crates/ide/src/goto_definition.rs: goto_definition"]}
{"id": "C101", "title": "The name the server sends for a file leads back to this file", "statement": "The URI that the server puts into its messages for a file (the target of a definition, the document of diagnostics, the main file of a project) is one that a request may use for this file: it is taken for this very file, however the client writes it (escaping more or fewer characters, in upper or lower case). Different files have different URIs. A document that is not a file of the disk is not taken for one.", "quantifier": "all file names (any bytes), all histories of files that are created, changed and deleted, all spellings of a URI", "why_tests_cant": "Names with blanks, percent signs or letters that are not ASCII, and names of files created later, are endless; a test tries a handful of names with one spelling.", "anchors": ["crates/sourcepawn_lsp/src/lsp/from_proto.rs: abs_path, vfs_path", "crates/sourcepawn_lsp/src/lsp/to_proto.rs: url_from_abs_path", "crates/sourcepawn_lsp/src/global_state.rs: file_id_to_url, url_to_file_id"]}
{"id": "C102", "title": "A condition that uses definitions has the value of its full text", "statement": "The outcome of a #if condition in which definitions are used, with or without arguments, is the outcome of the condition with every definition replaced by what it stands for; names after 'defined' are not replaced.", "quantifier": "every macro table, every condition", "why_tests_cant": "definitions use each other without bound and each changes how the operators around it group only after replacement", "anchors": ["crates/preprocessor/src/evaluator.rs: IfCondition::evaluate", "crates/preprocessor/src/macros.rs: expand_identifier"]}
{"id": "C103", "title": "The text that is analysed is the file with its macros replaced", "statement": "The text that the parser sees for a file has one line for each line of the file. A line that is compiled is the line as it was typed, in which each use of a macro (with its arguments) is replaced by what it stands for with the definitions in force at this place, all macros in it replaced in turn, and in which nothing else is changed but the kind of its blanks. Of a line with a condition, or one that is not compiled, nothing but comments is left.", "quantifier": "every file made of code, uses and calls of macros, definitions and their removal, includes, conditional directives, comments, and code that is not compiled; every set of definitions that is in force at its start", "why_tests_cant": "The text is put together token by token in a state with a dozen fields (pending blanks, the line so far, expansions on a stack, skipped ranges); that nothing is lost, doubled or moved depends on every order in which uses, comments and directives may follow each other.", "anchors": ["crates/preprocessor/src/lib.rs: SourcepawnPreprocessor::preprocess_input, push_ws, push_symbol, push_current_line, process_directive", "crates/preprocessor/src/macros.rs: expand_identifier"]}
{"id": "C104", "title": "A workspace with symbolic links is scanned to the end, and everything in it is found", "statement": "Symbolic links in a workspace folder, also ones that lead in circles or nowhere, do not keep the server from finishing the scan of the folder. The files loaded are exactly the .sp and .inc files that can be reached from the folder without following a link back into a directory on the way, outside of the .git directory of the folder, each under the name by which it is reached, with its contents, and no name twice. Every source file that can be reached from the folder at all, by a way that does not use the name .git, is loaded under some name. Each file is loaded only once, and nothing in .git is.", "quantifier": "for every disk with any links, every folder, every file", "why_tests_cant": "Links make infinitely many names for finitely many files; that a walk ends for every way in which links can lead in circles is not a matter of samples.", "anchors": ["crates/vfs-notify/src/lib.rs: load_entry", "crates/vfs/src/loader.rs: Entry::sp_files_recursively"]}
{"id": "C105", "title": "The name selected in the target of go-to-definition is inside the target", "statement": "In every answer to go-to-definition the range that is selected in the target lies inside the range of the target, as the protocol demands of a link to a location.", "quantifier": "every file, every position, every definition, every macro used on the lines of the definition", "why_tests_cant": "The two ranges are mapped back to the source one by one, each with the macros of the line it begins on; whether they keep their order depends on every combination of macros, lines and lengths.", "anchors": ["crates/ide/src/goto_definition.rs: goto_definition, find_inner_name_range", "crates/ide/src/lib.rs: s_range_to_u_range", "crates/sourcepawn_lsp/src/lsp/to_proto.rs: location_info"]}
{"id": "C106", "title": "Tokens fetched again and indexing when loading is over or a file changes", "statement": "A client that can be asked to fetch semantic tokens again is asked, exactly once, in every step after which the server is quiescent and before which it was not quiescent or the contents of some file were other ones; a client that cannot be asked is never asked. When the server becomes quiescent and indexing is wanted, an indexing job is at work after that step. At every moment as many indexing jobs were started as have ended, or one more. Jobs are started only for steps in which the server becomes quiescent while indexing is wanted and for jobs that ended cancelled: there are never more jobs than these occasions.", "quantifier": "every disk, configuration, history of client messages, loader steps and turns, and every grouping of loader messages into turns", "why_tests_cant": "a token refresh or job start that is missed, doubled, or repeated every turn depends on the order of loader, client and job events; tests see a few orders", "anchors": ["crates/sourcepawn_lsp/src/main_loop.rs: handle_event, prime_caches", "crates/sourcepawn_lsp/src/op_queue.rs: OpQueue", "crates/sourcepawn_lsp/src/reload.rs: is_quiescent"]}
{"id": "C107", "title": "Published diagnostics name the version they were computed for", "statement": "Diagnostics published for an open document carry the version of that document whose text they were computed from; diagnostics of a document that is not open carry no version.", "quantifier": "every history of messages of the client, loader reports, ends of jobs in any order, and every choice of which diagnostics differ from those held", "why_tests_cant": "whether a version number and a text belong together depends on which messages the main loop receives between the start of a computation and the handling of its result", "anchors": ["crates/sourcepawn_lsp/src/main_loop.rs: handle_event, update_diagnostics, handle_task", "crates/sourcepawn_lsp/src/handlers/notification.rs: handle_did_open_text_document, handle_did_change_text_document, handle_did_close_text_document", "crates/sourcepawn_lsp/src/mem_docs.rs: MemDocs"]}
{"id": "C108", "title": "The answer to a request for a definition names the files that were meant", "statement": "A request for a definition is answered by one link for every place the analysis finds, in order. The link says where the request was made, the place, and a URI. The URI is that of the file the place is in, also if this file is deleted, created again or changed, or other files come and go, while the answer is computed; a later request with this URI is taken for this file as long as it exists. A request for a document that does not exist is answered by an error.", "quantifier": "every history of files before, during and after the request, every moment at which the server looks up a name, every URI, position and list of places", "why_tests_cant": "the names of files are looked up in the live file system while the analysis runs on a snapshot; a test fixes one interleaving", "anchors": ["crates/sourcepawn_lsp/src/handlers/request.rs: handle_goto_definition", "crates/sourcepawn_lsp/src/lsp/to_proto.rs: goto_definition_response, location_link, location_info", "crates/sourcepawn_lsp/src/lsp/from_proto.rs: file_position", "crates/sourcepawn_lsp/src/global_state.rs: GlobalStateSnapshot::url_to_file_id, file_id_to_url"]}
{"id": "C109", "title": "The server keeps to what the client can do", "statement": "The server sends a client only what the client said it can deal with: it asks for settings, asks to refresh tokens, shows progress, sends Markdown and links, and counts columns in UTF-8 or UTF-32, only if the client announced each of these. What the client announced is made use of.", "quantifier": "all capabilities a client may announce, with any level of them missing, and all occasions on which the server sends something", "why_tests_cant": "capabilities are nested optional values whose combinations a test cannot enumerate, and the editors a test uses announce nearly everything", "anchors": ["crates/sourcepawn_lsp/src/capabilities.rs: server_capabilities, ClientCapabilitiesExt", "crates/sourcepawn_lsp/src/config.rs: Config::semantic_tokens_refresh, Config::hover", "crates/sourcepawn_lsp/src/progress.rs: GlobalState::report_progress", "crates/sourcepawn_lsp/src/lsp/to_proto.rs: markup_content, goto_definition_response", "crates/sourcepawn_lsp/src/lsp/ext.rs: negotiated_encoding"]}
{"id": "C110", "title": "A file is preprocessed with the definitions of the place that includes it", "statement": "A file of a project is preprocessed with exactly the macro definitions that are in force where it is first included while the main file is read with textual inclusion (directly or through other files). No file is read twice. If reading the main file does not come by the file, for instance because it is only included in code that is not compiled, or if it belongs to no project, its text is used as it is written.", "quantifier": "every set of files that include each other in any way (cycles included), every main file, every file asked for, every behaviour of the preprocessor within one file", "why_tests_cant": "The definitions a file starts with depend on all includes before it in the project and on their order; tests preprocess one file or a pair.", "anchors": ["crates/preprocessor/src/db.rs: preprocess_file_query", "crates/preprocessor/src/db.rs: preprocess_file_inner_params_query"]}
{"id": "C111", "title": "What the server announces, it does", "statement": "What the answer to initialize announces holds: a well-formed request for an announced feature is given to its handler, a request for anything else is answered with method not found and starts nothing, the notifications about documents reach their handlers, an encoding of columns is announced, one the client listed or UTF-16, and the changes to documents are read with it, and each token of an answer, read with the announced names of types and modifiers, shows the type and the modifiers that were meant.", "quantifier": "all capabilities of a client, all states of the server before shutdown, all requests and notifications, all lists of highlights", "why_tests_cant": "the announcement, the dispatcher and the tables of names are in three files, and tests look at a few methods and one kind of token only", "anchors": ["crates/sourcepawn_lsp/src/capabilities.rs: server_capabilities", "crates/sourcepawn_lsp/src/main_loop.rs: on_request, on_notification", "crates/sourcepawn_lsp/src/lsp/semantic_tokens.rs: SUPPORTED_TYPES, SUPPORTED_MODIFIERS, type_index", "crates/sourcepawn_lsp/src/lsp/to_proto.rs: semantic_tokens"]}
{"id": "C112", "title": "A request is answered from the file it names", "statement": "A request about a file that the server has is answered from the text of this file: the file is found, and what is read is its text at one moment after the request was sent, whatever the client sends, whatever happens on disk and however the threads are scheduled meanwhile. In particular this holds of a document that is open from the request to its answer.", "quantifier": "all histories of messages of the client, reports of the loader, and schedules of the workers; all files", "why_tests_cant": "names are looked up in shared state that changes while a request is worked on, texts in a snapshot that does not; tests run requests one at a time", "anchors": ["crates/sourcepawn_lsp/src/global_state.rs: GlobalStateSnapshot, url_to_file_id", "crates/sourcepawn_lsp/src/lsp/from_proto.rs: file_id, file_position, file_range", "crates/sourcepawn_lsp/src/handlers/request.rs"]}
{"id": "C113", "title": "A file is preprocessed as part of the plugin that includes it", "statement": "Each document of the workspace is preprocessed as part of a plugin that includes it, directly or through other files: with the definitions that are in force where it is first included when this plugin is read. A document nobody includes starts with no definitions. Which plugin it is depends only on the documents and what they include, and it is the one the client is told about when it asks for the main file of the document.", "quantifier": "all finite sets of documents that include each other in any way, cycles included; all contents; all orders in which hash maps are visited; all documents", "why_tests_cant": "the main file is chosen by walking a hash map of the roots of the include graph, whose order changes from run to run; tests have one plugin", "anchors": ["crates/preprocessor/src/db.rs: preprocess_file_query", "crates/base-db/src/graph.rs: projet_subgraph, find_roots", "crates/sourcepawn_lsp/src/handlers/request.rs: handle_project_main_path"]}
{"id": "C114", "title": "The profile shows what was run", "statement": "(Of the source of the profiler, which this commit has in its tree but does not compile: its modules are commented out in crates/profile/src/lib.rs.) When profiling is enabled, entering and leaving spans never makes the program panic, whatever spans are run and however deep they are nested, and nothing of a span is kept once the outermost one is left. For each outermost span that was asked for and takes longer than the limit, a report is printed: the spans inside it that take longer, nested as they were run and in their order, down to the depth asked for below the outermost one; the short ones counted and added up label by label, in the order of the labels; and the time that was spent in none of them. When profiling is disabled nothing is recorded.", "quantifier": "all sequences of nested spans with any labels, details and times; all filters (depth, labels, limit)", "why_tests_cant": "the report is computed from a tree of indices that is built while the program runs; tests cover a few shapes", "anchors": ["crates/profile/src/tree.rs: Tree::start, finish, children", "crates/profile/src/hprof.rs: span, ProfileStack::push, pop, print"]}
{"id": "C115", "title": "Messages are written as the command line says", "statement": "Told to be quiet, the server writes no messages. Otherwise it writes, for all its crates, the messages whose level the number of -v options asks for: errors, with -v warnings too, and so on, -vv being the maximum; more -v options never lose a message. A log file contains what is printed, whatever was in it before.", "quantifier": "all options; all modules and levels; all sequences of messages; all earlier contents of the log file", "why_tests_cant": "the filter is a list of names of crates, matched against all modules of all crates, also those of others", "anchors": ["crates/sourcepawn_lsp/src/main.rs: setup_logger, Opts"]}
{"id": "C116", "title": "The status report shows what the files occupy", "statement": "After any sequence of file contents being set, replaced and deleted, the line of the status report on the memory of the files counts each file that is there once, with the size of the contents last given to it, and no file that is deleted. The amount shown is the number of whole bytes, kilobytes or megabytes: up to 4096 bytes it is exact, above that it is less than one unit too small. More memory is never shown as less.", "quantifier": "all histories of the virtual file system, all sizes", "why_tests_cant": "the total depends on the whole history and the text on each size; tests check a few", "anchors": ["crates/vfs/src/lib.rs: Vfs::memory_usage, set_file_contents", "crates/profile/src/memory_usage.rs: Bytes", "crates/sourcepawn_lsp/src/handlers/request.rs: handle_analyzer_status"]}
{"id": "C117", "title": "The status report counts what is stored", "statement": "The status report never fails while the text of every file is stored. Each of its numbers is the one its line names: the size of the texts of all files, the number of trees and of those that are still stored, for the preprocessed files the number stored, their macros, the memory of the macros and their offsets, for the parameters of the preprocessor the same with the files being preprocessed, and the number of stored maps, bodies, scopes and inference results. The report does not depend on the order in which the database yields what it has stored.", "quantifier": "all contents of the database, all orders of its tables", "why_tests_cant": "the tables of the database are unordered and of any size; tests see a few entries in one order", "anchors": ["crates/ide/src/status.rs: status, collect_query, StatCollect", "crates/sourcepawn_lsp/src/handlers/request.rs: handle_analyzer_status"]}
