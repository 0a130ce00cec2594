# Formal model of sourcepawn-vscode (language server) in Lean 4

Source: `/repo` (read as text, never built). Model: `lean/Verif/`. All paths below are relative to `/repo/crates`.

## Layout

Each area has one directory `lean/Verif/<Area>/` (or a single file) with

* `Model` – total, computable Lean functions that follow the Rust functions; every definition cites file and lines and
  says where it simplifies,
* `Spec` – a small independent specification (what an ideal implementation would compute),
* `Props` – the property theorems, stated in terms of the model's entry points and the spec, each followed by an
  `example` showing that its hypotheses are met by a concrete, non-trivial case. Where the code violates a property,
  a theorem ending in `_refuted` proves the negation with a concrete witness and a theorem ending in `_partial`
  proves the part that does hold.

## Conventions

* `Vec`, slices, iterators → `List`; `HashMap`/`HashSet` → association functions or lists with the iteration order
  left arbitrary (a parameter, or quantified over); `&mut` → returned value.
* `usize/u32` positions → `Nat`; `i32` in the `#if` evaluator → `Int` with an explicit 32-bit range check (overflow,
  division by zero and out-of-range shifts are explicit panic outcomes, as in a build with debug assertions), so
  "no panic" is a statement about a value, not an assumption.
* Panics (`unwrap`, `unreachable!`, `todo!`, indexing) → explicit error constructors.
* Unbounded Rust loops → structural recursion, well-founded recursion, or an iterated step function when the Rust loop
  may fail to terminate (termination is then a theorem or a refuted theorem).
* Threads → a transition system whose steps are the atomic actions (channel send / receive); theorems quantify over
  every list of actions.

## Trusted base

* Lean 4.33.0's kernel and the axioms `propext`, `Classical.choice`, `Quot.sound` (at most). No axiom is added, no
  `sorry`, `native_decide`, `bv_decide`. `lean/Verif/Audit.lean` prints the axioms of every theorem of the manifest.
* The correspondence between the Rust text and the Lean model (by reading; every definition cites its source).
* What each area takes as given is listed in the next section.

## What is modelled, and what is taken as given

| module | code | taken as given or simplified |
|---|---|---|
| `TextSync/*`, `Text/LineEndings` | `sourcepawn_lsp/src/lsp/{utils,from_proto}.rs`, `sourcepawn_lsp/src/line_index.rs` | UTF-16/UTF-8 column conversion of the crate `line-index` is a parameter; its line table is modelled |
| `Vfs/*`, `Paths/*` | `vfs/src/{lib,path_interner,file_set,loader,vfs_path}.rs`, `paths/src/lib.rs` | the watcher thread and the operating system; absolute Unix paths as lists of characters or components |
| `DbSync/*` | `sourcepawn_lsp/src/global_state.rs` `process_changes`, `base-db/src/change.rs` | salsa: a query is a pure function of its inputs |
| `Graph/*` | `base-db/src/{graph,db}.rs` | arbitrary iteration order of hash maps |
| `Include/Resolve`, `Include/Preprocess` | `base-db/src/include.rs`, `preprocessor/src/db.rs` | regular expressions of the directive are a parser of the model; behaviour inside one file is a finite interaction tree in `Preprocess` |
| `Include/File` | `preprocessor/src/db.rs:50-70` | the main file of a project (C15, C97) is a parameter; runs of files as in `Include/Preprocess` |
| `Include/Project` | `preprocessor/src/db.rs:50-70` with `base-db/src/graph.rs:68-93` | the includes of the graph are taken to contain those met while preprocessing (hypothesis `Within`) |
| `Profile/Model` | `profile/src/tree.rs`, `profile/src/hprof.rs` | one thread and one filter; labels are numbers; no heartbeats (unused); lines as data, not text; parsing of the filter not modelled; **both files are commented out in `profile/src/lib.rs:10-20` and are not part of the compiled program** |
| `Lsp/Logging` | `sourcepawn_lsp/src/main.rs:17-39, 69-122` | the crate `fern` by its documented behaviour; a line is given as its bytes (time stamp and format left out) |
| `Vfs/Usage` | `vfs/src/lib.rs` (`memory_usage`), `profile/src/memory_usage.rs` (`Bytes`), `handlers/request.rs:235-239` | capacity = length; integers without overflow; number and suffix instead of text |
| `Ide/Status` | `ide/src/status.rs` | a table is the list of its entries, kept as what is read of them; lines as numbers |
| `Lsp/Offered` | capabilities.rs:14-40, semantic_tokens.rs:38-175, 268-270, to_proto.rs:74-93, 104-124, syntax_highlighting.rs:50-99 | capabilities that are left out are absent; encodings the code does not know how to announce do not occur |
| `Lsp/Lookup` | global_state.rs:348-387, 410-416, from_proto.rs:65-95, request.rs:18-133 (first query) | files stand for their numbers (C04); a file that is not in the snapshot counts as missing, whether the query panics or gives the text that is left of a removed file |
| `Pre/{Token,Expand,Eval,Main}` | `preprocessor/src/{lib,macros,evaluator,symbol,token,offset}.rs` | the external lexer: a file is its list of tokens, each with the flag `in_preprocessor`; text lengths count characters, not bytes; `text()` and `inline_text()` are one; `i32` is a 32-bit vector, with overflow checks on or off (`Profile`); the effect of an include on the macro table is a parameter; columns are natural numbers without saturation |
| `Pre/Position` | `ide/src/lib.rs` position mapping, `syntax` ranges | as above |
| `Lsp/*` | `sourcepawn_lsp/src/{dispatch,main_loop,diagnostics,op_queue,global_state}.rs`, `sourcepawn_lsp/src/lsp/{semantic_tokens,ext}.rs`, `sourcepawn_lsp/src/handlers/*`, request queue of the crate `lsp-server` | threads are transition systems whose steps are atomic actions; channels are FIFO; bodies of handlers are arbitrary |
| `Flycheck/Model`, `Flycheck/SpComp` | `flycheck/src/{lib,spcomp}.rs` | processes and the operating system are actions; `\d`, `\s` of the regular expression, path operations and existence of files are parameters |
| `Ide/Prime` | `ide/src/prime_caches.rs` | thread pool as actions; each unit of work is atomic |
| `Stdx/HashMap` | `stdx/src/hashable_hash_map.rs` | the hasher is a function on states |
| `Hir/Tree` | `hir-def/src/ast_id_map.rs`, `syntax` node pointers | tree-sitter: a tree is an arbitrary well-formed tree of kinds and byte ranges |
| `Hir/ItemTree` | `hir-def/src/item_tree/lower.rs` | what tree-sitter answers about a node (named children, text, types) is the parameter `Syn` |
| `Hir/Scope` | `hir-def/src/body/{lower,scope}.rs`, `resolver.rs` (local part) | expressions that declare nothing are merged; byte offsets instead of rows and columns; source ranges nest (`Laid`); iteration order of `scope_by_expr` is arbitrary; lookup of globals is a parameter |
| `Hir/Globals`, `Hir/Methodmap`, `Hir/EnumStruct`, `Hir/Arity`, `Hir/FindDef` | `hir-def/src/{db,data,resolver,infer,child_by_source,src}.rs`, `hir/src/{semantics,source_to_def,source_analyzer,has_source}.rs` | interned ids are numbers, hash order is a parameter; resolution results are carried by identifiers in `Arity` (that this is what inference does is `Infer.arguments_as_arity`); the ancestors of a node are a list of abstract kinds in `FindDef` |
| `Ide/MacroDef` | `ide/src/goto_definition.rs` `find_macro_def`, `hir/src/semantics.rs` `find_macro_def`, `hir-def/src/db.rs` `get_macro` | syntax trees of the other files define the names the preprocessor has seen in them (`Project`) |
| `Vfs/Loader` | `vfs-notify/src/lib.rs` `load_entry`, `read`, files sent for a `notify` event; `vfs/src/loader.rs` entries | file system is a finite tree that does not change during a walk; no symbolic links (see `Vfs/Links`), no unreadable directories |
| `Vfs/Links` | `vfs-notify/src/lib.rs` `load_entry` for directories, with `follow_links(true)` | the disk is a graph that does not change during a walk; a link is given by what it finally leads to; `walkdir` is modelled by its documented behaviour (links to a directory being walked and broken links are errors, which are dropped) |
| `Hir/Infer` | `hir-def/src/infer.rs`, `hir/type_ref.rs` | whole of `infer_expr`; statements that only infer their parts are one form; what names stand for and the members of types are parameters (modelled in `Scope`, `Globals`, `EnumStruct`, `Methodmap`) |
| `Hir/Lower` | `hir-def/src/body/lower.rs`, `hir-def/src/body.rs`, `hir/src/lib.rs:302-385` | whole of `ExprCollector`; syntax trees are an inductive type with fields, kinds and `NodePtr`s; expressions contain their parts instead of arena indices; literals: which texts Rust parses is modelled without signs, `inf`, `nan` |
| `Hir/BodyOf` | `hir-def/src/body.rs` 57–142 (`body_with_source_map_query`): which parameter list and which block are lowered for a function, method, accessor, typedef or functag | the node of the definition is given (`source`, C43 and C87); kinds the query does not tell apart are one kind |
| `Stdx/Process` | `stdx/src/process.rs` | `streaming_output` and the Unix `read2`; the operating system chooses what each poll and read gives; decoding of UTF-8 is a parameter; the Windows implementation is not modelled |
| `Lsp/Config` | `sourcepawn_lsp/src/config.rs`, `main_loop.rs:134-195`, `handlers/notification.rs:182-214` | settings, not capabilities; numbers other than those of a `u64` are one value; the JSON schema for the client is not modelled |
| `Lsp/Workers` | `sourcepawn_lsp/src/reload.rs:39-115`, `main_loop.rs:53-78`, `handlers/notification.rs:120-136, 182-262` | which workers there are and which are started; the task that starts them is taken to run at once (what a worker does is `Flycheck`) |
| `Ide/FileDiag` | `ide-diagnostics/src/lib.rs`, `ide-diagnostics/src/handlers/*.rs`, `hir/src/lib.rs:150-275`, `sourcepawn_lsp/src/diagnostics.rs:142-178` | findings in a body are given (see `Hir/Lower`, `Hir/Infer`); the texts of tree-sitter for syntax errors are given |
| `Ide/Hover` | `ide/src/hover.rs` (`find_macro_hover`) | slices count characters instead of bytes; the definition is shown as its item; hovering over other things than macros is go-to-definition (C62, C63) and `Documentation` |
| `Ide/Highlight` | `ide/src/syntax_highlighting.rs` (`highlight`), `to_proto::semantic_tokens`, the handlers of requests for the whole file and for a range | the range of the root of the syntax tree is a parameter; the encoding is that of `Lsp/SemTokens` |
| `Ide/Docs` | `ide-db/src/documentation.rs` (`Documentation::from_node`, `comment_to_doc`) | white space is that of Unicode (`Text/Space`); `to_markdown` is in `Ide/Markdown`; the text of a pragma, never used, is left out |
| `Ide/Goto` | `ide/src/goto_definition.rs` (`goto_definition`, `find_inner_name_range`), `descendant_for_point_range` of tree-sitter | what a name stands for and where a definition is are parameters; columns count characters |
| `Ide/Columns` | `syntax/src/utils.rs` (conversions of positions), `lsp/from_proto.rs` `file_position` | texts without macros |
| `Stdx/Pool` | `stdx/src/thread/pool.rs`, `sourcepawn_lsp/src/task_pool.rs` | the body of a job is only whether it returns or panics; the channel is trusted |
| `Lsp/Snapshot` | `main_loop.rs` turns, `global_state.rs` `snapshot`, `process_changes`; `dispatch.rs:83-111`; `task_pool.rs`; document notifications | edits are functions on texts; the database is set to the virtual file system at once; every request goes to a worker; salsa is trusted (snapshots do not change, writing waits for them, cancellation only then) |
| `Lsp/Versions` | `main_loop.rs` (publication), versions in `mem_docs.rs` and the document handlers | which diagnostics differ from those held is left open; publication on closing is C52 |
| `Lsp/Reply` | `handlers/request.rs` 18–39 (`handle_goto_definition`), `lsp/to_proto.rs` 17–53, `lsp/from_proto.rs` 66–79 | what the analysis finds is a parameter; every look-up of a name sees some state of the file system at or after the snapshot |
| `Lsp/Announced` | `capabilities.rs`, `config.rs` 195–204, 236–262, `lsp/to_proto.rs` 17–43, 55–66, `progress.rs` 18–69, the requests in `main_loop.rs` 183, 209–230, 673–679 and `handlers/notification.rs` 165–200 | of a message only what a client must be able to deal with; when the occasions arise is in other modules |
| `Ide/Markdown` | `ide-db/src/documentation.rs` (`to_markdown`), `ide/src/markup.rs`, end of `ide/src/hover.rs` | what regular expressions match is written out by hand (leftmost, greedy); white space and letters outside of ASCII are parameters; clients that asked for plain text get the same text, which is not modelled further |
| `Lsp/Compile` | handle_flycheck_msg (progress, status), report_progress, handle_work_done_progress_cancel, FileId as text, replacing of workers | C86 |
| `Hir/NameDef` | find_name_def, SourceToDefCtx (find_container, to_def), ChildBySource of files, enum structs, methodmaps, typesets, funcenums; HasSource | C87 |
| `Hir/Outside` | find_def outside of bodies: source_node_to_def, typedef_node_to_def, function_node_to_def_ without body, DefResolution::try_from | C88 |
| `Hir/InferScope` | `Props/InferScope` | which scopes the analysis has in force at each place of a body; the same meaning of names for the analysis and the navigation (C89) |
| `Graph/Graphviz` | `Props/Graphviz` | the picture of the projects (C90) |
| `Graph/Dot` | `graph.rs` (`to_graphviz`: the text, `COLORS`) | the reader of the DOT language is a specification: strings in quotes and other characters |
| `Ide/HoverDef` | `Props/HoverDef` | what hovering over a name shows (C91) |
| `Pre/Reports`, `Pre/ReportsSpec` | `Props/Provenance`, `Props/Reports` | the preprocessor's complaints (C92) |
| `Lsp/Settings` | `notification.rs:169-217`, `global_state.rs:177-197`, `main_loop.rs:134-195` | the exchange by which changed settings reach the server; ids of the requests of the server (the counter of `lsp-server` does not overflow) |
| `Lsp/Indexing` | `main_loop.rs` (`prime_caches`, `handle_task`, progress in `handle_event`), `progress.rs` | floating-point percentage is a parameter; a client without progress support gets nothing; a job that panics is left out |
| `Lsp/Lifecycle` | `main_loop.rs` (`run`, `on_notification`), `dispatch.rs` (`NotificationDispatcher`), `global_state.rs` (`complete_request`), `main.rs` | the handlers are parameters; a handler that panics ends the server |
| `Hir/Pretty` | `item_tree/pretty.rs`, `ide` (`pretty_item_tree`), `handle_item_tree` | the writer adds to a string and cannot fail; names of types as in `Hir/ItemTree` |
| `Graph/MainPath` | `handlers/request.rs` (`handle_project_main_path`) | URLs and files correspond one to one |
| `Hir/Written` | `TypeRef::from_node`, `from_returntype_node`, `to_str` (type_ref.rs), `FunctionKind::from_node`, `RawVisibilityId::from_node` (item_tree.rs) | which nodes the grammar puts under a field; that the token of a word has the word as text (`Plain`) |
| `Ide/GotoInclude` | `find_def` on an include directive, `include_node_to_def`, files as definitions | the tree comes from tree-sitter: that the string is a node with the range of the string is a hypothesis |
| `Lsp/Url` | `vfs_path`, `url_from_abs_path`, `url_to_file_id`, `file_id_to_url` | `Url::from_file_path` and `Url::to_file_path` of the crate `url` are modelled by their documented behaviour, parsing of a URI is not modelled; Windows prefixes are not modelled |
| `Pre/RewriteSpec`, `Props/Rewrite` | a line with its uses of macros replaced, lines with nothing but comments | specification only; the model is `Pre/Main` |
| `Pre/ChoiceSpec`, `Props/Choice` | conditional compilation with conditions by their meaning | specification only; the model is `Pre/Main` |
| `Lsp/Loading` | `main_loop.rs` turns, `handle_vfs_msg`, status and progress; `reload.rs`; document and watcher notifications; `NotifyActor::run` | interleavings of client, disk, loader and main loop; which files an entry has is left open; the virtual file system is its specification (C05); jobs, published messages and the compiler are not modelled |

Not modelled at all: the VS Code client (TypeScript), the document watcher, salsa's incremental recomputation, tree-sitter, the
external lexer, crossbeam channels, notify.

## Plan per property

| id | what is modelled | how it is proved |
|---|---|---|
| C01 | `apply_document_changes` over abstract line tables and byte strings | refinement to the sequential LSP spec; refuted for a ranged change before a full one; partial otherwise |
| C02 | the `index_valid` optimisation | invariant: lines below `index_valid` have the same start offset in the stale and the fresh table |
| C03 | `LineEndings::normalize` with its in-place gap loop on a byte buffer | loop invariant, equality with a recursive CRLF→LF spec |
| C04, C05 | `Vfs`, `PathInterner` | invariants and refinement over operation lists |
| C06, C12 | `process_changes` coalescing + `Change::apply` | simulation between VFS and database; refutations for the wrongly merged event triples and for files outside roots |
| C07 | `handle_vfs_msg`, did open/change/close | invariant over event lists |
| C08 | `Directories::includes_path` | fold characterisation |
| C09, C10 | `normalize_path`, `VirtualPath` | structural induction on component lists / strings |
| C11 | `FileSetConfig::partition`, `FileSet` | characterisation of the prefix map |
| C13–C15 | `graph.rs` | DFS = reachability for every neighbour order |
| C16 | include resolution | case analysis + idempotence |
| C17 | include chain, salsa cycle recovery | measure on the set of files on the chain |
| C18, C19, C28 | preprocessor main loop, conditional stack, line bookkeeping | refinement to a structured-block spec (`Sel`; `Picked` gives the conditions by the expression they stand for, as in C102); invariants |
| C20–C22 | `IfCondition::evaluate` | shunting-yard vs expression semantics; non-termination and panic witnesses |
| C23–C27 | `expand_identifier` and friends | lexicographic measure; characterisations; witnesses |
| C29 | position mapping; offsets recorded by the main loop for files with directives (`Pre/OffsetsSpec`: `File`) | arithmetic over sorted offset lists; induction over the lines of the file, with an invariant of the state between two tokens (`Props/OffsetsExpand` for one use, `Props/OffsetsLine`, `Props/OffsetsFile`; `Props/OffsetsText` for the lines of the text) |
| C30–C33, C38 | dispatcher, event loop, diagnostics, op queue | invariants of transition systems |
| C34, C39, C40 | flycheck actor, prime caches | transition systems |
| C35–C37 | semantic tokens | list algebra; cache protocol invariant |
| C41–C47 | HIR: scopes, syntax pointers, resolver, methodmaps, enum structs, arity | structural induction on trees |
| C48–C50 | utilities | direct |
| C51, C52 | `DiagnosticCollection`, `handle_task`, did close | invariants over histories; witnesses |
| C53, C54 | two passes of `preprocess_file` over interaction trees of includes | induction on the include depth; witnesses |
| C55, C56 | the three regular expression resolvers, `Graph::from_*` | case analysis, set extensionality |
| C57 | parsing of compiler output | parser round trip |
| C58, C59 | source-to-definition maps of enum structs and methodmaps | index arithmetic over mixed member lists; witnesses |
| C60 | `source_to_def` container search, `SourceAnalyzer`, scope at an offset | structural induction on bodies and ancestors; witnesses |
| C61 | `item_tree/lower.rs` as a fold that fills arenas | reading the arenas back gives the nested declarations, by a frame relation "the tree only grows" |
| C62 | offsets of the main loop and of conditions, global table of macros, go-to-definition | ghost history of definitions along a run; invariant "every recorded use names the definition in force"; completeness by following the run through the expansion stack |
| C63 | the walk of the loader over a file tree | mutual induction on trees: the walk from a root gives the files below it not cut off; comparison with the prefix test |
| C64 | transition system of client, disk, loader thread, main loop | invariant: the progress messages in flight lead from the counters of the main loop to the state of the loader; configurations in flight are numbered consecutively; ghost log for deliveries |
| C65 | the same | invariant over turns: quiescent implies a diagnostics job after the last change |
| C66 | the same | invariant: a file that is not open is going to be read, or what is on its way is what is on disk |
| C67 | files sent for an event of the file watcher | exact characterisation; deletions are refuted |
| C68 | `infer_expr` with its call stack, the maps it fills and its diagnostics | typing relation and occurrence relation as specification; mutual structural induction; refuted for shadowed type names, one-dimensional arrays, skipped named arguments |
| C69 | the named-argument case of the same | the same; refuted for methodmap methods and constructors |
| C70 | `ExprCollector::collect`, the source map, the loop over the diagnostics of a body | a relation between trees and expressions (`Reads`); induction on trees; each expression an event is about has a source |
| C71 | the same | the relation covers every call and access of a clean tree; each name is recorded once; composed with C68. Refuted for endless `for`, hexadecimal literals and `_` |
| C72 | the same, with panics as outcomes | induction on trees; refuted for calls of other expressions |
| C73 | `read2` as a loop over the turns of `poll`; every sequence of results | invariant: content = handed over ++ buffered ++ unread; descriptors polled are those not finished |
| C74 | `get_field`, `from_json`, `update`, answers of the client | taking a value leaves values at other paths alone; no path of a field leads through another; refuted for `{}`, reports, relative paths |
| C75 | `reload_flycheck`, `update_configuration`, `run_flycheck` over the include graph | invariants: workers have the settings in effect, and one for each root while the graph is unchanged; refuted for start-up, new projects and unsetting |
| C76 | `diagnostics`, `missing_nodes`, `File::diagnostics` | induction on trees; ranges with the segments of C29; refuted for methods and for places after macros |
| C77 | `find_macro_hover` on top of the offsets of C29 | sums of changes against the segments of a line; composed with the run of the preprocessor and with C24; refuted after an empty macro |
| C78 | `highlight` and the encoding, on top of the offsets of C29 | grouping by lines of a sorted list is the identity; composed with the run of the preprocessor and with C36, C49; refuted for the end of the last line and for left-over names of macros with parameters |
| C79 | the loop of `Documentation::from_node` over the siblings before a node, and the three regular expressions of `comment_to_doc` as functions on characters | induction over the siblings against a specification by indices; refuted for trailing comments, variables and some texts |
| C80 | go-to-definition with the search for the node, in user coordinates, over the runs of the preprocessor of both files | `File` of C29 for both files; the node at a position by induction on the tree; words are stretches of copied text |
| C81 | columns of requests and answers, search for the node in trees with byte columns | code units of a character are as many as bytes only in UTF-8 or ASCII; sums over the prefix of a line |
| C82 | the pool of threads and its channel as a transition system | invariant over histories; measure for termination; witness for every number of threads by induction |
| C83, C84 | client, inbox, main loop, snapshots, jobs, task channel as a transition system | invariant: everything computed comes from the texts of one prefix of the messages; measure for coming to rest; what is shown after all tasks in the channel; witnesses |
| C85 | the ten replacements of `to_markdown` as matchers at a position and a left-to-right scan; the layout of the hover text; documentation as summary and tagged entries (`Ide/Markdown`) | sublist and filter equations preserved by every pass; exact rendering pass by pass; calls, brackets and deprecations in running text (`Props/Inline`); lines of the result read as Markdown reads them; witnesses |
| C86 | the workers of `Flycheck/Model` by project, their common channel, the main loop turning messages into progress and status, `reload_flycheck`, tokens as strings | invariant over all interleavings: what the client saw of a token plus the pending messages of its worker is in order and ends in the state of the worker; last status against running compilers; cancellation as an invariant of the inbox; witnesses for two projects and for replaced workers |
| C87 | `find_name_def` with `source_to_def`, the maps of `child_by_source`, and the way back in `src.rs`, over the syntax trees and item trees of `Hir/ItemTree` | for every kind of declaration: position found again in the tree, container by climbing, entry of the map by the lowering theorem (C61), source by the item ids and pointers (C42, C43) |
| C88 | the other arms of `find_def`: `source_node_to_def`, `typedef_node_to_def`, members without body, over `Hir/FindDef` and `Hir/Globals` | the node the search stops at, then the theorems about global names (C44) |
| C89 | the resolver of the analysis on the way through a body (`update_to_inner_scope`, `reset_to_guard`), over the bodies and scopes of C41 | by induction over the place of the identifier: each block around it is the only node recorded under its range and its scope has the scope of the next block as parent, so entering the blocks one after the other gives the chain of the innermost one; then by comparison with what C41 gives for the navigation |
| C90 | `to_graphviz` as a list of lines over the search of C13, with the edges it takes | the edges taken make a tree of the files visited: an invariant of the search (every file but the root has exactly one edge to it and is reached over taken edges); then induction over the lines |
| C91 | `hover` and `find_macro_hover` over the functions of C80, C77 and C82, with the definition as in C80 | agreement with `goto_definition` by cases; the text of a range of the preprocessed file is that of the source, lifted from the lines (`SameText` of C80) to ranges of several lines |
| C92 | the three lists of errors of the preprocessor (`Pre/Reports`), following the main loop and the evaluation of conditions; `Told` (`Pre/ReportsSpec`) lists the include directives of the selected text and the conditions without a value as `Sel` of C18 follows a file | a turn in a skipped branch, in text and at a directive reports nothing (`Still`, `Silent`), with `Provenance.expand_Q` for what an expansion leaves on the stack and in the lexer; runs compose (`Emits`); ranges of condition errors by an invariant of the evaluation (`eError_place`, `eError_name`, `eError_bare`) |
| C93 | the client, the two queues, the open requests of the server and the handler of their answers | invariant: the settings have arrived, or a notification, a question or a newer answer is under way; every message needs finitely many steps |
| C94 | the main loop, the channel of tasks, the indexing job and its workers (`Ide/Prime`), the queue of operations | invariant: what was shown and the messages still in the channel lead to where the job is; coalescing keeps it |
| C95 | the loop of `run`, the chain of `NotificationDispatcher`, `complete_request`, with `Lsp/Dispatch` for requests; the handlers are parameters | induction on the chain of methods and on the events; witnesses |
| C96 | `print_item_tree`, on the item tree `Hir/ItemTree` makes of a syntax tree | the text is a function of rows written down from the source; induction on declarations and members; witness |
| C97 | `handle_project_main_path`, `projects_for_file` on `Graph/Model`; URLs are files | roots and reachability from C13-C15; witness |
| C98 | the parameters and declarations in `ExprCollector::collect` (`Hir/Lower`) with the log of the source map | induction over the declarations (`Known`), numbers are fresh (`Ext`, `Fresh` of C70), later insertions keep earlier ones; statements (`Stands`) by inversion of `Reads` of C71 |
| C99 | Nodes with kind and text, `from_node`, `from_returntype_node`, `to_str`, `FunctionKind::from_node`, `RawVisibilityId::from_node` (`Hir/Written`) | The loop over nodes before and after the base type; one induction for the words |
| C100 | The nodes of the tree, the ancestors of the node at the position, the resolution of C16/C55, the positions of C80 | The node at a position is the innermost one; composed with the words of C80 and the agreement of the resolutions |
| C101 | URIs as scheme, host and path, file names as bytes, percent encoding and decoding (`Lsp/Url`), the virtual file system of C04 | each spelling of a name decodes to it, by induction on the spelling; encoding is a spelling |
| C102 | a condition is its tokens; `Replaced` says which tokens stand for it when the definitions are replaced (`Deep` of C24, C27), `Denotes` of C20 what these mean | the loop with the expansion stack consumes what the plain condition consumes: induction on `Replaced` and `Deep`, from the expansion theorems of C24 and C27 |
| C103 | files as for C29 (`Pre.Spec.File`), line by line; `Pre.Spec.Rewritten` says what a line with its uses replaced is, `OnlyComments` what is left of the others | the run of the preprocessor is followed as for C29 (`Offsets.file_run`), the uses of a line are matched with the recorded offsets in order |
| C104 | the walk of the loader over a graph of numbered things with symbolic links (`Vfs/Links`); `Onward` says which ways follow no link back | membership by induction on the depth; a measure (directories not yet on the way, height without links) bounds the depth of every way, so that the walk ends; a shortest way to a file follows no link back |
| C105 | go-to-definition (`Ide/Goto`), files as for C80 | names are inside of nodes by induction on the tree; words keep their order when mapped back |
| C106 | `Lsp/Loading` as it is: every step leaves the main loop alone, is the initial status, or handles something and ends a turn | per-step counts of refresh requests and jobs; an accounting equation over histories (`Props/Turn`) |
| C107 | `Lsp/Versions`: versions of documents and publication on top of `Lsp/Snapshot` | where the diagnostics under way come from, as an invariant of all histories; witness for a change that overtakes a result |
| C108 | `Lsp/Reply`: the handler with a state of the file system of its own for every look-up | ids keep their paths (C04), URLs are understood (C101), induction over the targets |
| C109 | `Lsp/Announced`: capabilities with every level optional, what is sent on each occasion, and a specification of what the protocol asks of a client | case analysis on the occasion and the levels; `negotiation_correct` of C50 |
| C110 | `Include/File`: `preprocess_file`, the run of the main file over all files of the project; the specification is a relation of textual inclusion that lists the files read with their definitions | induction on the runs, as C54; witness |
| C111 | `Lsp/Offered` | `server_capabilities` and the tables of names as data; the methods a client may use are an inductive predicate over the record, compared with the chains of the dispatchers; tokens by decoding the answer and looking the numbers up in the announced tables |
| C112 | `Lsp/Lookup` | the transition system of `Lsp/Snapshot`; a handler looks its file up in the files of the main loop at any moment of its life and reads the snapshot; by the invariants of C83 and one that all jobs see the database as it is |
| C113 | `Include/Project` | the choice of the main file on the include graph (C16, C97) composed with preprocessing for a main file (C110); the file chosen is a root that reaches the file, `.sp` preferred, and reading it is determined |
| C114 | `Profile` | not part of the compiled program (modules commented out), hence `not_applicable`; of the source text: the tree of indices holds the spans (an invariant with a frame: what is entered later is written behind what is there, except for one link), printing it gives the report that is defined on the nested spans; the bound on the recursion suffices because each node is one span |
| C115 | `Lsp/Logging` | the level of the nearest module with a rule, computed for every path; the log file as a file that is overwritten from its start |
| C116 | `Vfs/Usage` | the table of contents is the list of paths with their last contents (from the invariant of C04), so its sum is the sum over any duplicate-free list that has all files; rounding by cases of the unit |
| C117 | `Ide/Status` | the collectors are folds; by induction they are sums and counts over the entries, which do not change under a permutation |

## Where the code does not do what the property says

Each entry is a theorem with the suffix `_refuted` (a witness run of the model).

| id | what goes wrong |
|---|---|
| C01 | changes before the last full replacement are applied after it; a column past the end of a line lands on the next line |
| C06, C12 | create/delete/create of one file in one batch is merged wrongly; a file outside every root panics |
| C10 | the prefix test of virtual paths compares characters; `..` after a leading component escapes |
| C15 | every file that includes something is a project root |
| C16 | a quoted include relative to the file is only found within the same source root |
| C19, C28 | comments of several lines in inactive code, adjacent inactive regions |
| C21 | a stray `;` in a condition makes the evaluation run for ever; so does `#if A` after `#define G(%1) 1` and `#define A G A` |
| C22 | division by zero and a lone `(` abort |
| C22 | `#if ) - 1` is taken for true and a number too large to be read for zero, without a report |
| C22 | `#if A` aborts when `A` is `(1 + B)`, `B` is `(1 + C)`, `C` is `(1 + D)`, `D` is `(1 + E)` and `E` is `(1)`: the expansion is given up at six contexts (macros.rs:203) and what it opened stays open |
| C23 | a three-line file is never finished by the preprocessor |
| C24 | expansions nested more than four deep are cut off |
| C25 | tokens after a function-like macro name without arguments are lost or reordered |
| C26 | commas in brackets or braces split arguments |
| C27 | `STR(new %1)` inside a definition, with `#define STR(%1) #%1`, becomes `"newx"` for `x`: the blank before a token put in for a parameter is lost |
| C27 | after `#if B` with `#define B F 1 U`, where `U` is not a macro, the next call of the macro `F` is not expanded: the condition is given up and `F` stays barred |
| C29 | macros with an empty body, calls with a blank before the parenthesis, calls of macros that start with a number or with a call that starts with its argument, and expansions of several lines shift positions; in arguments, the line is too small below every evaluated `#if` (`process_if_directive` writes a line without advancing the current position) and below every comment or `#define` of several lines (`push_symbol` advances the column only), and the position between two tokens belongs to the first |
| C31 | a second shutdown request succeeds |
| C34 | a replaced worker and its successor share an id |
| C38 | an empty configuration answer panics; error answers block for ever |
| C39 | with two workers projects are indexed twice and counted twice |
| C40 | two further arguments precede the configured ones |
| C41, C60 | uses at the end of a block, `for` with missing parts, second declarations of a name |
| C42, C43 | empty nodes |
| C44, C45, C59 | names declared twice, inherited constructors, inheritance cycles, methodmaps across files |
| C47 | arguments of unresolved callees |
| C51, C52 | changes of code or tags only; a diagnostics job in flight when a document is closed |
| C53, C54, C55 | includes seen twice, `#undef` in an included file, directives with two names |
| C57 | a compiler message with line zero; `/a(1)/c.sp(12) : error ..`: taken for a message about `/c.sp`, and `/a+b/c.sp(12) : error ..` is dropped (characters the expression for paths does not know) |
| C58 | a field after a method |
| C61 | a macro defined where the parser made an error node: building the summary panics |
| C62 | an expansion that leaves a macro name to be read, a call over several lines, `#define` without a name, a preprocessing error |
| C63 | a path both included and excluded, a file excluded by its own name: the scan and the later test disagree |
| C67 | deleted files: the event is dropped because `fs::metadata` fails |
| C68 | a local variable with the name of a type hides the type of other variables; elements of `Foo[]` have no members; values of named arguments of unknown functions and of methodmap methods are skipped |
| C69 | named arguments of methodmap methods lead nowhere; those of `new` are taken for arguments of the call around |
| C71 | a `for` without condition or last part is not analysed at all, its body included; hexadecimal, binary and octal literals and `_` are dropped from argument lists, so a wrong number of arguments is reported |
| C72 | `unreachable!()` when what is called is neither a name nor a member; `todo!()` for parameter lists of another kind |
| C74 | an answer `{}` leaves the old settings; `find(Result::is_ok)` drops errors before they are collected, so invalid settings are never reported; relative include directories are dropped |
| C75 | `reload_flycheck` is called before any file is loaded and afterwards only when the settings of the compiler change: until then saving compiles nothing, and new projects have no worker; when the compiler is unset it returns before removing the workers |
| C76 | methods and properties are not among `as_def_with_body`, so nothing in them is reported; `s_range_to_u_range` is not applied to the ranges of diagnostics |
| C77 | the blank before a macro that expands to nothing is left out but not counted, so the text shown for a later macro of the line is cut at the wrong place; no expansion is shown in conditions, since their line is empty in the preprocessed text; macros in the arguments of a call are not recorded |
| C78 | the range of the root of the tree of the preprocessed text is compared with ranges of the source; a name left on the expansion stack is expanded again and its synthetic range recorded; a condition is not read beyond an undefined name; macros in the arguments of a call are not recorded |
| C79 | a comment at the end of a line of code is taken as documentation of the declaration in the next row; variables are not in the list of documented kinds; the regular expression for one kind of comment is also applied to the other kind |
| C80 | the end of a definition over several lines is moved by the macros of its first line (`s_range_to_u_range` uses the offsets of the first line for both ends); names in arguments below an evaluated `#if` or a comment of several lines (as C29) |
| C81 | columns of the client are used as byte columns of the syntax tree, and the other way round, without conversion: with UTF-16 everything after a character outside of ASCII is off |
| C82 | a panic in the computation of diagnostics or in the filling of caches is not caught and ends its thread for good; after as many panics as there are threads, handing over any work panics in the main loop and the server is gone (`workers_used_up_refuted`) |
| C83 | an answer may be for a later text than the one the request was made for: a request cancelled by an edit is tried again, with its old position, on the new text (`moment_of_request_refuted`) |
| C84 | a worker drops its snapshot before it sends the diagnostics it computed; if a change is applied in between, the older result can arrive after the newer one and stays (`stale_refuted`) |
| C85 | `@param x` without description: the paragraph break behind it is eaten, the next tag follows on the same line; `*two` directly behind the star is glued to the word before; `\\<` loses its escape; three backticks in the definition end the code block; a client that cannot show Markdown is sent it nevertheless |
| C86 | `SpcompStatusNotification` is sent for each worker: with two projects, the end of one compiler says that no compiler is at work while the other runs (`status_refuted`). A worker replaced while a save is handled shares the token with its successor: the client sees a progress begun twice (`progress_refuted`) |
| C87 | A macro defined inside a function: its container is the body of the function, for which `ChildContainer::child_by_source` is `unreachable!`; a name in a node of another kind (`struct_declaration`, …) meets `_ => unreachable!()` in `find_name_def` (`macro_inside_crashes`, `other_names_crash`, `name_refuted`). |
| C88 | `source_node_to_def` looks for functions with `file_id == id.file_id` only and ends with `_ => None`: outside of bodies, functions of other files and all type definitions (like the callback types in the signatures of natives) lead nowhere (`elsewhere_refuted`, `type_refuted`). |
| C89 | right behind a block (`{int b; {int b;}b = 1;}`) the navigation takes the name from that block, the analysis does not; in a member, `this` is the object for the analysis and the global variable `this`, if there is one, for the navigation; the content of a `for` without condition or iteration is not analysed |
| C90 | `dfs` records only the edges to files it has not visited yet, so the picture has one arrow to each file of a project, from whichever file the search came; the other inclusions are not drawn |
| C90 | a file name with a quote: the text of the picture does not have the name, nothing is escaped |
| C91 | the text of a declaration is cut from the preprocessed file, so for `y = A;` with `#define A 1 + 2` hovering shows `y = 1 + 2;` (`text_refuted`) |
| C92 | the columns of an unresolved include are those of the name in the text of the directive, so for an indented `#include` they are too small (`place_refuted`); an operator that comes from a macro defined on several lines is reported on a line after the directive (`line_refuted`); of `#if 0 \|\| 1 * 2 + 3 *` the first operator is marked and not the last one (`operator_refuted`) |
| C93 | a client that pushes its settings is ignored; in AMXX mode the server starts with the settings for SourcePawn |
| C95 | a notification with malformed parameters or a response to a request never sent bring the server down; `exit` without `shutdown` ends with status 0 |
| C96 | the parameter of `f(x)`, which has no type, is not shown |
| C97 | with `a.sp` including `b.inc` including `c.inc`, the main file of `c.inc` and of `b.inc` may be said to be `b.inc` |
| C99 | `Float` is kept as `float` and shown so (type_ref.rs:53, `OldFloat` is never produced) |
| C100 | On the opening or the closing quote of `#include "y.inc"` go-to-definition finds nothing (`quotes_refuted`); between them it finds the file |
| C101 | The scheme of a URI is ignored: `git:/p/x.sp` is taken for `file:///p/x.sp` (`scheme_refuted`); the server sends `file:///(` for what the client may have opened as `file:///%28` (`spelling_refuted`) |
| C102 | definitions nested five deep: see C22 |
| C103 | after a condition that names a macro without its arguments, the first call of this macro is not replaced (`MacroLeft.call_after_condition_refuted`) |
| C104 | a file with two names is loaded twice, as two files (`Links.twice_refuted`); a link above the folder makes files of its `.git` loaded (`Links.git_refuted`) |
| C105 | a definition whose name is on its last line with a macro on the first; a name that comes out of a macro (`Selection.last_line_refuted`, `Selection.expansion_refuted`) |
| C107 | a document changed while a result for the previous version waits in the channel: the result is published with the new version |
| C109 | progress and definition links are sent to clients that did not announce them; hovers are Markdown for clients that can only show plain text |
| C110 | a definition removed by a file is still there in the files included after it |
| C112 | a request looks its file up in the current file system and reads the snapshot: a file opened just after the request makes it panic, a file closed and deleted meanwhile is not found (`opened_refuted`, `deleted_refuted`) |
| C113 | the order of a hash map decides which of two nested `.sp` files a file is preprocessed for; the client may be told about another main file (`split_refuted`, `told_refuted`) |
| C115 | quiet mode prints errors of other crates; `flychek` is misspelled; `-vv` is not the maximum; an older log is not removed (`quiet_refuted`, `flycheck_refuted`, `max_refuted`, `log_refuted`) |

(The detailed status of each property is in `MANIFEST.json`. Attempts to break the theorems by editing the model are logged in
`seeded/LOG.jsonl`. Entries marked "edit made by a script" come from random edits: each records that a proof broke, and the properties
that rest on it; it was not examined for each whether the claim becomes false. Some of them edit a specification or a hypothesis instead of
the program. Scripted edits that no theorem noticed were looked at singly: either a theorem was tightened, which is logged, or the edit
changes nothing that can be observed. Twenty-nine scripted edits, mostly of `Ide/*` and `Pre/Reports`, ended without a verdict because the
prover was stopped for lack of memory; they are not in the log, and most of them were not run again.)
