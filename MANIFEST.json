{
 "claims": [
  {
   "property": "C01",
   "status": "partial",
   "theorems": [
    "Verif.Props.TextSync.sync_correct_partial",
    "Verif.Props.TextSync.sync_refuted_ranged_before_full",
    "Verif.Props.TextSync.sync_refuted_column_past_end"
   ],
   "note": "The full statement is false of the code: changes before the last full replacement are applied after it (out of order) and a column past the end of the line lands on a later line; both have machine-checked witnesses. Proved for batches whose full replacements come first and whose ranges are inside the text."
  },
  {
   "property": "C02",
   "status": "proved",
   "theorems": [
    "Verif.Props.TextSync.index_reuse_invisible",
    "Verif.Props.TextSync.index_reuse_inverted_range_refuted"
   ],
   "note": "Proved for every text and every batch with ordered ranges; the ordering hypothesis is shown necessary."
  },
  {
   "property": "C03",
   "status": "proved",
   "theorems": [
    "Verif.Props.LineEndings.normalize_correct",
    "Verif.Props.LineEndings.normalize_removes_pairs",
    "Verif.Props.LineEndings.normalize_not_idempotent"
   ],
   "note": "The in-place loop equals the recursive specification on every text."
  },
  {
   "property": "C04",
   "status": "proved",
   "theorems": [
    "Verif.Props.Vfs.file_id_stable",
    "Verif.Props.Vfs.file_id_injective",
    "Verif.Props.Vfs.file_path_stable"
   ],
   "note": "All histories."
  },
  {
   "property": "C05",
   "status": "proved",
   "theorems": [
    "Verif.Props.Vfs.vfs_refines_map",
    "Verif.Props.Vfs.vfs_reads_last_write",
    "Verif.Props.Vfs.vfs_iter_exact"
   ],
   "note": "All histories; the change log refines an ideal journal."
  },
  {
   "property": "C06",
   "status": "partial",
   "theorems": [
    "Verif.Props.DbSync.db_follows_vfs_partial",
    "Verif.Props.DbSync.db_follows_vfs_refuted"
   ],
   "note": "False of the code for three existence changes of one file within one batch (stale text, witness). Proved for all other histories over covered paths."
  },
  {
   "property": "C07",
   "status": "proved",
   "theorems": [
    "Verif.Props.Editor.open_docs_win",
    "Verif.Props.Editor.closed_docs_follow_disk"
   ],
   "note": "All interleavings in which every change batch is one covered by C01."
  },
  {
   "property": "C08",
   "status": "proved",
   "theorems": [
    "Verif.Props.Paths.includes_iff",
    "Verif.Props.Paths.contains_file_correct",
    "Verif.Props.Paths.includes_order"
   ],
   "note": "All include and exclude lists and all absolute paths."
  },
  {
   "property": "C09",
   "status": "proved",
   "theorems": [
    "Verif.Props.Paths.normalize_correct",
    "Verif.Props.Paths.normalize_idempotent",
    "Verif.Props.Paths.normalize_eq_iff"
   ],
   "note": "All absolute Unix paths, at the level of characters."
  },
  {
   "property": "C10",
   "status": "partial",
   "theorems": [
    "Verif.Props.Paths.parent_correct",
    "Verif.Props.Paths.join_correct",
    "Verif.Props.Paths.name_correct",
    "Verif.Props.Paths.name_trailing_slash",
    "Verif.Props.Paths.prefix_partial",
    "Verif.Props.Paths.prefix_refuted",
    "Verif.Props.Paths.join_dot_dotdot_refuted"
   ],
   "note": "Parent, join and name splitting proved for all paths. The prefix test compares characters, so \"/foobar\" starts with \"/foo\" (witness), and a \"..\" after a leading \"./\" is not resolved (witness)."
  },
  {
   "property": "C100",
   "status": "partial",
   "theorems": [
    "Verif.Props.GotoInclude.quoted_partial",
    "Verif.Props.GotoInclude.without_path",
    "Verif.Props.GotoInclude.chevron_partial",
    "Verif.Props.GotoInclude.quotes_refuted"
   ],
   "note": "Proved for files of the class of C80 and directives with a name in quotes or in angle brackets, at every place inside of the quotes, or on the brackets and between them: the string is underlined and the target is the file of the include relation and of the preprocessor, from its start. Refuted on the quotes themselves, where nothing is found: the node there is the quote and its parent is not the directive. Missing: files outside of the class; directives with both kinds of names (C55)."
  },
  {
   "property": "C101",
   "status": "partial",
   "theorems": [
    "Verif.Props.Url.sent_names",
    "Verif.Props.Url.round_trip",
    "Verif.Props.Url.answered",
    "Verif.Props.Url.told_apart",
    "Verif.Props.Url.spelling_refuted",
    "Verif.Props.Url.scheme_refuted"
   ],
   "note": "For all names, histories and spellings, on Unix; the crate url is modelled by its documented behaviour. False of the code: the scheme of a URI is ignored, so that git:/p/x.sp, the old version of a file, is taken for the file (scheme_refuted). The URI the server sends may be spelled differently from the one the client uses (spelling_refuted), so a client must compare them by what they mean. Windows drive letters are not modelled."
  },
  {
   "property": "C102",
   "status": "partial",
   "theorems": [
    "Verif.Props.EvalUse.condition_with_definitions_partial",
    "Verif.Props.EvalUse.condition_like_replaced_partial",
    "Verif.Props.EvalParen.nested_refuted"
   ],
   "note": "Conditions on one line, definitions with and without parameters nested at most four deep, none of them disabled by an earlier use without arguments. Missing: deeper ones, which are false of the code (witness: five definitions, one in the other, abort)."
  },
  {
   "property": "C103",
   "status": "partial",
   "theorems": [
    "Verif.Props.Rewrite.analysed_text_partial",
    "Verif.Props.MacroLeft.call_after_condition_refuted"
   ],
   "note": "proved for files of a class (one-line calls, expansions that are not empty and not nested too deep, no errors), line by line; violated after a condition that cannot be evaluated"
  },
  {
   "property": "C104",
   "status": "partial",
   "theorems": [
    "Verif.Props.Links.walk_ends",
    "Verif.Props.Links.folder_links_exact",
    "Verif.Props.Links.folder_links_names_once",
    "Verif.Props.Links.every_file_found",
    "Verif.Props.Links.once_partial",
    "Verif.Props.Links.git_partial",
    "Verif.Props.Links.twice_refuted",
    "Verif.Props.Links.git_refuted"
   ],
   "note": "Termination, exactness and completeness for all disks and links; the crate walkdir is modelled by its documented behaviour. False of the code: a file with two names is loaded twice, as two files (twice_refuted), and a link above the folder makes files in its .git loaded (git_refuted); both hold on disks on which every thing has one name."
  },
  {
   "property": "C105",
   "status": "partial",
   "theorems": [
    "Verif.Props.Selection.selection_partial",
    "Verif.Props.Selection.selection_plain",
    "Verif.Props.Selection.last_line_refuted",
    "Verif.Props.Selection.expansion_refuted"
   ],
   "note": "selection_plain: every file, if no macro is used on the lines on which the definition and its name begin. selection_partial: files of the class of C80, definitions whose name is outside of macros and that end on a later line than their name or are on one line. False otherwise: a definition whose name is on its last line with a macro on the first (last_line_refuted), a name that comes out of a macro (expansion_refuted)."
  },
  {
   "property": "C106",
   "status": "proved",
   "theorems": [
    "Verif.Props.Turn.tokens_again",
    "Verif.Props.Turn.tokens_never",
    "Verif.Props.Turn.one_indexing",
    "Verif.Props.Turn.indexing_starts",
    "Verif.Props.Turn.indexing_only"
   ],
   "note": "The states of Lsp/Loading, for all interleavings. Whether the client can be asked and whether indexing is wanted are parameters (the second changes with the configuration); that diagnostics are published (publish_diagnostics) is not part of this claim."
  },
  {
   "property": "C107",
   "status": "partial",
   "theorems": [
    "Verif.Props.Versions.version_partial",
    "Verif.Props.Versions.version_calm_partial",
    "Verif.Props.Versions.version_refuted"
   ],
   "note": "For every history the version is the one the document has when the result is handled (none if it is closed), and the text is one the document had after an earlier message. Text and version belong together in histories in which no document message is received while diagnostics are under way. False of the code otherwise: diagnostics computed for version 1 are published as those of version 2 (version_refuted)."
  },
  {
   "property": "C108",
   "status": "proved",
   "theorems": [
    "Verif.Props.Reply.goto_reply",
    "Verif.Props.Reply.goto_none",
    "Verif.Props.Reply.understood"
   ],
   "note": "On Unix, with the crate url as in C101. The places are what the analysis returns (C62, C80, C87, C100, C105); a cancelled analysis is asked again (C83)."
  },
  {
   "property": "C109",
   "status": "partial",
   "theorems": [
    "Verif.Props.Announced.understood_iff",
    "Verif.Props.Announced.understood_partial",
    "Verif.Props.Announced.used",
    "Verif.Props.Announced.understood_refuted",
    "Verif.Props.Announced.plain_refuted"
   ],
   "note": "Exact for all capabilities. False of the code: progress and links are sent to clients that announced neither (understood_refuted), and a client that can only show plain text gets the marks of Markdown (plain_refuted)."
  },
  {
   "property": "C11",
   "status": "proved",
   "theorems": [
    "Verif.Props.DbSync.partition_correct"
   ],
   "note": "All root lists and all VFS histories; path prefix test abstract."
  },
  {
   "property": "C110",
   "status": "partial",
   "theorems": [
    "Verif.Props.IncludeFile.project_file_exact",
    "Verif.Props.IncludeFile.project_file_partial",
    "Verif.Props.IncludeFile.readFor_unique",
    "Verif.Props.IncludeFile.project_file_refuted"
   ],
   "note": "False of the code when a file removes a definition and another is included after it (witness); proved for all files that remove none, with any cycles; project_file_exact needs no such hypothesis and says that losing #undef is the only difference. The main file of a project is the subject of C15 and C97 and a parameter here."
  },
  {
   "property": "C111",
   "status": "proved",
   "theorems": [
    "Verif.Props.Offered.offered_handled",
    "Verif.Props.Offered.not_offered",
    "Verif.Props.Offered.documents_followed",
    "Verif.Props.Offered.sync_announced",
    "Verif.Props.Offered.encoding_announced",
    "Verif.Props.Offered.tokens_named",
    "Verif.Props.Offered.macros_named"
   ],
   "note": "What may be asked of a server with given capabilities (Spec.Request, Spec.Notification) is stated after the protocol. Requests of the server own (sourcepawn-lsp/...) need no announcement. Columns of requests other than changes are not read in the announced encoding (C81)."
  },
  {
   "property": "C112",
   "status": "partial",
   "theorems": [
    "Verif.Props.Lookup.open_found_partial",
    "Verif.Props.Lookup.at_rest_partial",
    "Verif.Props.Lookup.fails_iff",
    "Verif.Props.Lookup.opened_refuted",
    "Verif.Props.Lookup.deleted_refuted"
   ],
   "note": "Proved for documents that stay open in the client from the request on, and for all files while no change is about to be written. False otherwise: the name is looked up in the file system of the main loop, the text in the snapshot. opened_refuted: a file opened just after the request makes the request panic; deleted_refuted: a document closed and deleted meanwhile is not found. fails_iff says exactly when."
  },
  {
   "property": "C113",
   "status": "partial",
   "theorems": [
    "Verif.Props.ProjectText.plugin_partial",
    "Verif.Props.ProjectText.some_plugin",
    "Verif.Props.ProjectText.main_exact",
    "Verif.Props.ProjectText.main_starts_empty",
    "Verif.Props.ProjectText.split_refuted",
    "Verif.Props.ProjectText.told_refuted"
   ],
   "note": "Proved for a file that is reached from one plugin file only, and for documents nobody includes. In general the file is preprocessed as part of some document that reaches it, a plugin if there is one. False: which one it is depends on the order of a hash map if an .sp file includes an .sp file that includes others (split_refuted), and the client may be told about another one (told_refuted)."
  },
  {
   "property": "C114",
   "status": "not_applicable",
   "theorems": [
    "Verif.Props.Profile.report_exact",
    "Verif.Props.Profile.reports_unique",
    "Verif.Props.Profile.summary_unique",
    "Verif.Props.Profile.disabled"
   ],
   "note": "Not part of the program at this commit: crates/profile/src/lib.rs:10-20 has the modules hprof and tree commented out, so nothing can enable the profiler and no user relies on it. The theorems are about the source text of the two files. For spans that are left in the reverse order of entering them (they are values dropped at the end of a scope) and a clock that does not go back. The depth d shows the outermost span and d levels below it."
  },
  {
   "property": "C115",
   "status": "partial",
   "theorems": [
    "Verif.Props.Logging.crates_partial",
    "Verif.Props.Logging.passes_iff",
    "Verif.Props.Logging.verbosity_mono",
    "Verif.Props.Logging.log_exact",
    "Verif.Props.Logging.log_partial",
    "Verif.Props.Logging.quiet_refuted",
    "Verif.Props.Logging.flycheck_refuted",
    "Verif.Props.Logging.max_refuted",
    "Verif.Props.Logging.log_refuted"
   ],
   "note": "passes_iff says for all modules and levels what is written. As stated for all crates of the server but flycheck. False: errors of other crates are printed in quiet mode, the crate flycheck is misspelled in the list, -vv is not the maximum, and the log file keeps the end of an older, longer log. The crate fern is modelled by its documented behaviour."
  },
  {
   "property": "C116",
   "status": "proved",
   "theorems": [
    "Verif.Props.Usage.usage_exact",
    "Verif.Props.Usage.shown_close",
    "Verif.Props.Usage.shown_mono",
    "Verif.Props.Usage.shown_neg",
    "Verif.Props.Usage.line_exact"
   ],
   "note": "The capacity of a vector after shrink_to_fit is taken to be its length; the allocator may keep more. No overflow of isize."
  },
  {
   "property": "C117",
   "status": "proved",
   "theorems": [
    "Verif.Props.Status.status_exact",
    "Verif.Props.Status.status_order",
    "Verif.Props.Status.status_total"
   ],
   "note": "The entries of the tables and the sizes of macros are those given by the crates salsa and deepsize. The memory of the macros passed to a file is an estimate of the code: their mean size, rounded down, for each place of their table. The lines are kept as their numbers."
  },
  {
   "property": "C12",
   "status": "partial",
   "theorems": [
    "Verif.Props.DbSync.process_never_panics_partial",
    "Verif.Props.DbSync.process_panics_on_recreate_refuted",
    "Verif.Props.DbSync.process_panics_outside_roots_refuted",
    "Verif.Props.DbSync.process_panics_outside_roots"
   ],
   "note": "False of the code: a file outside all roots, or create/delete/create in one batch, panics. Proved panic-free otherwise."
  },
  {
   "property": "C13",
   "status": "proved",
   "theorems": [
    "Verif.Props.Graph.project_is_reachable",
    "Verif.Props.Graph.search_terminates"
   ],
   "note": "All graphs, cyclic or not."
  },
  {
   "property": "C14",
   "status": "proved",
   "theorems": [
    "Verif.Props.Graph.every_file_has_project",
    "Verif.Props.Graph.project_depends_on_order_refuted"
   ],
   "note": "All graphs and all iteration orders of the root map. Which of several projects is chosen depends on that order (witness)."
  },
  {
   "property": "C15",
   "status": "partial",
   "theorems": [
    "Verif.Props.Graph.roots_partial",
    "Verif.Props.Graph.roots_refuted"
   ],
   "note": "False of the code: every file that includes something is a root (witness). The exact set is characterised and contains all true roots."
  },
  {
   "property": "C16",
   "status": "partial",
   "theorems": [
    "Verif.Props.Resolve.quoted_include_partial",
    "Verif.Props.Resolve.quoted_include_refuted",
    "Verif.Props.Resolve.chevron_include",
    "Verif.Props.Resolve.no_name_no_include",
    "Verif.Props.Resolve.infer_ext_correct",
    "Verif.Props.Resolve.infer_ext_idempotent"
   ],
   "note": "Chevron includes and the extension rule are proved. A quoted include is looked up relative to the including file only among files of the same source root (witness of a known file that is not found)."
  },
  {
   "property": "C17",
   "status": "proved",
   "theorems": [
    "Verif.Props.IncludeRun.cyclic_includes_terminate"
   ],
   "note": "All include relations among finitely many files; the behaviour inside one file is an arbitrary finite interaction tree."
  },
  {
   "property": "C18",
   "status": "proved",
   "theorems": [
    "Verif.Props.Conditional.conditional_compilation",
    "Verif.Props.Choice.conditional_compilation_meaning"
   ],
   "note": "All nestings of conditional blocks whose conditions evaluate; and with the conditions given by the value of the expression they stand for."
  },
  {
   "property": "C19",
   "status": "partial",
   "theorems": [
    "Verif.Props.Lines.line_count_partial",
    "Verif.Props.Lines.line_kept_partial",
    "Verif.Props.LinesCall.line_count_calls_partial",
    "Verif.Props.Lines.line_count_comment_refuted",
    "Verif.Props.Lines.line_count_call_refuted",
    "Verif.Props.Lines.line_count_open_refuted",
    "Verif.Props.Lines.line_count_undef_refuted"
   ],
   "note": "line_count_partial, line_kept_partial: files with macros without parameters and closed conditional blocks whose inner tokens are on one line each. line_count_calls_partial: the files of C29, with calls of macros on one line. Comments of several lines in inactive code, macro arguments on several lines, open blocks and #undef without a name change the number of lines (witnesses)."
  },
  {
   "property": "C20",
   "status": "proved",
   "theorems": [
    "Verif.Props.Evaluator.condition_value",
    "Verif.Props.Evaluator.condition_value_checked"
   ],
   "note": "All expressions. With overflow checks on, the value is the same or the evaluation aborts."
  },
  {
   "property": "C21",
   "status": "partial",
   "theorems": [
    "Verif.Props.EvalTerm.evaluation_terminates_partial",
    "Verif.Props.EvalUse.condition_like_replaced_partial",
    "Verif.Props.Evaluator.evaluation_terminates_refuted",
    "Verif.Props.EvalLoop.names_only_refuted"
   ],
   "note": "False of the code: a stray \";\" makes the evaluation run for ever (witness), and so does #if A with #define G(%1) 1 and #define A G A (witness). Proved for conditions of operators, parentheses, literals and names of macros made of the same, recursive or not."
  },
  {
   "property": "C22",
   "status": "partial",
   "theorems": [
    "Verif.Props.EvalTerm.evaluation_never_panics_partial",
    "Verif.Props.EvalParen.evaluation_never_panics_nested_partial",
    "Verif.Props.EvalUse.evaluation_never_panics_replaced_partial",
    "Verif.Props.EvalParen.nested_refuted",
    "Verif.Props.Evaluator.evaluation_panics_division_refuted",
    "Verif.Props.Evaluator.evaluation_panics_paren_refuted",
    "Verif.Props.Evaluator.malformed_unreported_refuted"
   ],
   "note": "False of the code: a division by zero and a lone \"(\" abort, `) - 1` and a number too large are not reported (witnesses). five definitions that name each other inside parentheses abort too. Proved for conditions without division whose parentheses are closed, with definitions without parameters that bring no parentheses, or close their own and are nested at most four deep, or with definitions with or without parameters when the condition with the definitions replaced closes its parentheses and does not divide."
  },
  {
   "property": "C23",
   "status": "partial",
   "theorems": [
    "Verif.Props.MacroTerm.expand_terminates",
    "Verif.Props.MainLoop.preprocessing_terminates_partial",
    "Verif.Props.MainLoop.plain_file_terminates",
    "Verif.Props.MainLoop.preprocessing_terminates_refuted"
   ],
   "note": "One call of the expansion always finishes. The loop that uses it need not: a three-line file is never finished (witness). Proved to finish when macro bodies give arguments to every macro that takes some."
  },
  {
   "property": "C24",
   "status": "partial",
   "theorems": [
    "Verif.Props.Macros.object_macro_partial",
    "Verif.Props.MacroDeep.use_partial",
    "Verif.Props.Macros.nested_expansion_refuted"
   ],
   "note": "Proved for definitions nested at most four deep, also when they call macros with parameters (use_partial); deeper ones are cut off (witness)."
  },
  {
   "property": "C25",
   "status": "partial",
   "theorems": [
    "Verif.Props.MacroArgs.lone_name_partial",
    "Verif.Props.MacroArgs.lone_name_comment_refuted",
    "Verif.Props.MacroArgs.lone_name_body_refuted"
   ],
   "note": "Proved when the next token is not a comment or a line break in an expansion; otherwise tokens are lost (witnesses)."
  },
  {
   "property": "C26",
   "status": "partial",
   "theorems": [
    "Verif.Props.MacroArgs.arguments_partial",
    "Verif.Props.MacroArgs.bracket_commas_refuted"
   ],
   "note": "Proved with nesting in parentheses only; commas in brackets or braces split (witness)."
  },
  {
   "property": "C27",
   "status": "partial",
   "theorems": [
    "Verif.Props.Define.declared_substitution",
    "Verif.Props.MacroArgs.substitution",
    "Verif.Props.MacroCall.call_partial",
    "Verif.Props.MacroDeep.call_partial",
    "Verif.Props.MacroDeep.nested_string_refuted",
    "Verif.Props.MacroLeft.call_after_condition_refuted"
   ],
   "note": "All bodies, parameter lists and argument lists, from the tokens of the definition to the expansion of a call. MacroCall.call_partial: with the macros in the result expanded in turn (nested at most three deep, C24); MacroDeep.call_partial: also when definitions call macros with parameters. Where such an inner call makes a string of several tokens of which one was put in for a parameter, the blank between them is lost (witness). A call is left as it is when a condition above it was given up in the middle of an expansion (witness)."
  },
  {
   "property": "C28",
   "status": "partial",
   "theorems": [
    "Verif.Props.Conditional.inactive_lines_partial",
    "Verif.Props.Choice.inactive_lines_meaning_partial",
    "Verif.Props.Conditional.inactive_comment_refuted",
    "Verif.Props.Conditional.inactive_merge_refuted"
   ],
   "note": "Proved when skipped parts hold single-line tokens; multi-line comments and adjacent regions break it (witnesses)."
  },
  {
   "property": "C29",
   "status": "partial",
   "theorems": [
    "Verif.Props.Offsets.positions_partial",
    "Verif.Props.Offsets.argument_partial",
    "Verif.Props.Offsets.argument_line_refuted",
    "Verif.Props.Offsets.argument_comment_refuted",
    "Verif.Props.Offsets.argument_touch_refuted",
    "Verif.Props.Offsets.call_blank_refuted",
    "Verif.Props.Offsets.call_number_refuted",
    "Verif.Props.Offsets.inner_call_refuted",
    "Verif.Props.Offsets.positions_empty_refuted",
    "Verif.Props.Position.to_server",
    "Verif.Props.Position.to_user_partial",
    "Verif.Props.Position.round_trip_partial",
    "Verif.Props.Position.round_trip_empty_refuted",
    "Verif.Props.Position.argument_position"
   ],
   "note": "The mapping is proved for every line whose records describe it, and that the preprocessor records so for files of code, comments and definitions over any number of lines, includes, conditional directives and code that is not compiled, with uses of macros and with calls on one line, also of macros that call others; positions in arguments are taken to a copy of the argument (argument_partial). Below an evaluated condition, a comment or a definition of several lines the copy is looked for on a line that is too small (witness); where tokens of an argument touch, the first one is taken (witness); after a call with a blank before the parenthesis, of a macro that starts with a number, and of one that starts with a call that starts with its argument, columns are off (witnesses). The blank before a macro with an empty body is lost but not counted, so later columns are off (witness), and a position behind it does not come back (witness)."
  },
  {
   "property": "C30",
   "status": "proved",
   "theorems": [
    "Verif.Props.Dispatch.answered_once",
    "Verif.Props.Dispatch.all_answered_at_rest",
    "Verif.Props.Dispatch.outcome_answered",
    "Verif.Props.Dispatch.progress"
   ],
   "note": "All executions in which the client does not reuse the id of an unanswered request; includes panics, cancellations and retries."
  },
  {
   "property": "C31",
   "status": "partial",
   "theorems": [
    "Verif.Props.Dispatch.rejected_after_shutdown_partial",
    "Verif.Props.Dispatch.rejected_after_shutdown_refuted",
    "Verif.Props.Dispatch.no_handler_after_shutdown",
    "Verif.Props.Dispatch.shutdown_iff"
   ],
   "note": "A second shutdown request is answered with success (witness); every other request is rejected and no handler runs."
  },
  {
   "property": "C32",
   "status": "proved",
   "theorems": [
    "Verif.Props.OpQueue.one_at_a_time",
    "Verif.Props.OpQueue.no_request_lost"
   ],
   "note": "All histories."
  },
  {
   "property": "C33",
   "status": "proved",
   "theorems": [
    "Verif.Props.Diagnostics.published_matches",
    "Verif.Props.Diagnostics.held_check_is_latest_run"
   ],
   "note": "All histories and all hash-map iteration orders."
  },
  {
   "property": "C34",
   "status": "partial",
   "theorems": [
    "Verif.Props.Flycheck.runs_in_order",
    "Verif.Props.Flycheck.latest_run",
    "Verif.Props.Flycheck.latest_run_reload_refuted"
   ],
   "note": "Proved for every schedule of one worker. False when the workers are replaced while a task still holds the old ones: both use the same id (witness)."
  },
  {
   "property": "C35",
   "status": "proved",
   "theorems": [
    "Verif.Props.SemTokens.diff_correct",
    "Verif.Props.SemTokens.diff_minimal"
   ],
   "note": "All token arrays."
  },
  {
   "property": "C36",
   "status": "proved",
   "theorems": [
    "Verif.Props.SemTokens.encode_lossless"
   ],
   "note": "All token lists in document order."
  },
  {
   "property": "C37",
   "status": "proved",
   "theorems": [
    "Verif.Props.SemTokens.delta_protocol",
    "Verif.Props.SemTokens.client_view_correct",
    "Verif.Props.SemTokens.client_view_total"
   ],
   "note": "All histories. client_view_total: the responses are taken to reach the client in the order in which the handlers make their last access to the cache."
  },
  {
   "property": "C38",
   "status": "partial",
   "theorems": [
    "Verif.Props.Startup.no_message_lost_partial",
    "Verif.Props.Startup.stuck_without_configuration",
    "Verif.Props.Startup.empty_configuration_refuted"
   ],
   "note": "Holds whenever the client answers with a non-empty array. With an empty array the server panics, and with only error answers it waits for ever, so queued messages are lost."
  },
  {
   "property": "C39",
   "status": "partial",
   "theorems": [
    "Verif.Props.Prime.primed_partial",
    "Verif.Props.Prime.primed_one_worker",
    "Verif.Props.Prime.primed_refuted"
   ],
   "note": "With one worker it holds on every schedule. With two workers it is false: all work is sent again in every turn of the loop and projects indexed twice are counted twice (witness); for any number of workers every project is at least being indexed."
  },
  {
   "property": "C40",
   "status": "partial",
   "theorems": [
    "Verif.Props.SpComp.arguments_are",
    "Verif.Props.SpComp.command_mac",
    "Verif.Props.SpComp.command_refuted"
   ],
   "note": "The argument list is as stated for all configurations. False of the command: outside of macOS on ARM two more arguments precede it."
  },
  {
   "property": "C41",
   "status": "partial",
   "theorems": [
    "Verif.Props.Scope.local_names_partial",
    "Verif.Props.Scope.never_from_other_block",
    "Verif.Props.Scope.resolve_exact",
    "Verif.Props.Scope.loop_variable_refuted",
    "Verif.Props.Scope.second_loop_refuted",
    "Verif.Props.Scope.open_loop_refuted",
    "Verif.Props.Scope.adjacent_block_refuted"
   ],
   "note": "The exact behaviour is proved for bodies in which no for leaves out a part and uses that do not start exactly where a block ends. The rule of the language holds for names that do not leak out of the header of a for; a loop variable is visible behind its loop and in earlier loops (witnesses), the body of a for without condition is dropped (witness), and a name written directly behind a closing brace is looked up inside that block (witness)."
  },
  {
   "property": "C42",
   "status": "partial",
   "theorems": [
    "Verif.Props.Tree.pointer_partial",
    "Verif.Props.Tree.pointer_sound",
    "Verif.Props.Tree.pointer_refuted"
   ],
   "note": "Proved for every node that is not empty; a node of length zero (a missing token) can send the search into a dead end, which panics (witness)."
  },
  {
   "property": "C43",
   "status": "partial",
   "theorems": [
    "Verif.Props.Tree.id_found",
    "Verif.Props.Tree.id_to_node",
    "Verif.Props.Tree.ids_distinct_partial",
    "Verif.Props.Tree.ids_distinct_refuted"
   ],
   "note": "The id of every recorded node leads back to it. Different non-empty nodes have different ids; two empty nodes of one kind at one place share one (witness)."
  },
  {
   "property": "C44",
   "status": "partial",
   "theorems": [
    "Verif.Props.Globals.resolves_partial",
    "Verif.Props.Globals.undeclared",
    "Verif.Props.Globals.sound",
    "Verif.Props.Globals.empty_iff",
    "Verif.Props.Globals.methodmap_first",
    "Verif.Props.Globals.all_functions",
    "Verif.Props.Globals.declared",
    "Verif.Props.Globals.duplicate_variable_refuted"
   ],
   "note": "Nothing is returned exactly for undeclared names, answers only name declarations, and names that are declared once, or as a function or methodmap, are resolved. Refuted for names with several declarations none of which is a function or methodmap (for example a variable declared in two files): the answer is an empty list of functions; empty_iff characterises the failing cases."
  },
  {
   "property": "C45",
   "status": "partial",
   "theorems": [
    "Verif.Props.Methodmap.lookup_member",
    "Verif.Props.Methodmap.data_iff",
    "Verif.Props.Methodmap.constructor_partial",
    "Verif.Props.Methodmap.constructor_refuted",
    "Verif.Props.Methodmap.cycle_refuted"
   ],
   "note": "Member lookup is proved for every chain that ends and every iteration order of hash maps. Refuted: an inherited constructor is preferred over the own one; a cyclic chain panics."
  },
  {
   "property": "C46",
   "status": "proved",
   "theorems": [
    "Verif.Props.EnumStruct.field_to_itself",
    "Verif.Props.EnumStruct.method_to_itself"
   ],
   "note": "For every order of fields and methods; members have distinct nodes."
  },
  {
   "property": "C47",
   "status": "partial",
   "theorems": [
    "Verif.Props.Arity.arity_partial",
    "Verif.Props.Arity.single_call",
    "Verif.Props.Arity.unknown_callee_refuted",
    "Verif.Props.Arity.method_refuted",
    "Verif.Props.Arity.named_argument_refuted",
    "Verif.Props.Infer.arguments_as_arity"
   ],
   "note": "Exact for calls of functions in bodies where unresolved callees get no function as argument and named arguments only occur in calls of functions and enum-struct methods. Refuted: an unresolved callee takes the arity of a function passed to it; method calls are never checked; values of named arguments of methodmap methods are skipped."
  },
  {
   "property": "C48",
   "status": "proved",
   "theorems": [
    "Verif.Props.HashMap.hash_by_content",
    "Verif.Props.HashMap.hash_equal",
    "Verif.Props.HashMap.hash_equal_set",
    "Verif.Props.HashMap.equal_params_hash"
   ],
   "note": "All maps, sets and query parameters, all iteration orders and histories."
  },
  {
   "property": "C49",
   "status": "proved",
   "theorems": [
    "Verif.Props.Position.contains_correct",
    "Verif.Props.Position.offset_contains_correct",
    "Verif.Props.Position.intersect_correct"
   ],
   "note": "All ranges and positions."
  },
  {
   "property": "C50",
   "status": "proved",
   "theorems": [
    "Verif.Props.Startup.negotiation_correct"
   ],
   "note": "All offered lists."
  },
  {
   "property": "C51",
   "status": "partial",
   "theorems": [
    "Verif.Props.Diagnostics.held_native_is_last",
    "Verif.Props.Diagnostics.held_native_is_last_refuted"
   ],
   "note": "False of the code: a change of code or tags only is ignored (witness). Proved for comparisons that see every field."
  },
  {
   "property": "C52",
   "status": "partial",
   "theorems": [
    "Verif.Props.Editor.closed_has_no_diagnostics_partial",
    "Verif.Props.Editor.closed_has_no_diagnostics_refuted"
   ],
   "note": "False of the code when a diagnostics job is in flight at the moment of closing (witness); proved otherwise."
  },
  {
   "property": "C53",
   "status": "partial",
   "theorems": [
    "Verif.Props.IncludeRun.passes_agree_partial",
    "Verif.Props.IncludeRun.passes_agree_refuted"
   ],
   "note": "False of the code when a file includes again what an earlier include already brought in (witness); proved otherwise."
  },
  {
   "property": "C54",
   "status": "partial",
   "theorems": [
    "Verif.Props.IncludeRun.textual_inclusion_partial",
    "Verif.Props.IncludeRun.textual_inclusion_refuted",
    "Verif.Props.IncludeFile.inclusion_exact"
   ],
   "note": "False of the code when an included file removes a macro (witness); proved otherwise; inclusion_exact says for all files that losing such an #undef is the only difference."
  },
  {
   "property": "C55",
   "status": "partial",
   "theorems": [
    "Verif.Props.Resolve.copies_agree_quoted",
    "Verif.Props.Resolve.copies_agree_chevron",
    "Verif.Props.Resolve.copies_disagree_refuted"
   ],
   "note": "Proved for directives with one name; with both a chevron name and quoted text they differ (witness)."
  },
  {
   "property": "C56",
   "status": "proved",
   "theorems": [
    "Verif.Props.Graph.graph_is_include_relation",
    "Verif.Props.Graph.project_edges_sound",
    "Verif.Props.Graph.projects_for_file_correct"
   ],
   "note": "All graphs."
  },
  {
   "property": "C57",
   "status": "partial",
   "theorems": [
    "Verif.Props.SpComp.output_understood",
    "Verif.Props.SpComp.output_sound",
    "Verif.Props.SpComp.line_zero_refuted",
    "Verif.Props.SpComp.path_refuted"
   ],
   "note": "Proved for all lines with a line number of at least one and a path of letters, digits and seven other characters; the number zero makes the reader panic or wraps, and with other characters in the path the message is dropped or taken for one about another file (witnesses)."
  },
  {
   "property": "C58",
   "status": "partial",
   "theorems": [
    "Verif.Props.EnumStruct.use_partial",
    "Verif.Props.EnumStruct.use_leads",
    "Verif.Props.EnumStruct.call_leads",
    "Verif.Props.EnumStruct.use_refuted"
   ],
   "note": "Holds for fields no method precedes, and for methods. Refuted for a field after a method: it leads to another field or panics; use_leads says where it leads."
  },
  {
   "property": "C59",
   "status": "partial",
   "theorems": [
    "Verif.Props.Methodmap.function_to_itself_partial",
    "Verif.Props.Methodmap.function_to_itself_refuted"
   ],
   "note": "Holds if the node indices of inherited members exist in the file of the methodmap (for example if the ancestors are in the same file). Refuted across files: the index is looked up in the wrong file, which panics."
  },
  {
   "property": "C60",
   "status": "partial",
   "theorems": [
    "Verif.Props.FindDef.container_partial",
    "Verif.Props.FindDef.local_of_container_partial",
    "Verif.Props.FindDef.forward_refuted",
    "Verif.Props.FindDef.variable_refuted",
    "Verif.Props.FindDef.enum_methodmap_refuted",
    "Verif.Props.FindDef.same_member_refuted",
    "Verif.Props.Picked.picked_iff",
    "Verif.Props.Picked.crash_iff"
   ],
   "note": "Proved for files in which no name is declared twice; picked_iff and crash_iff say for all other files exactly which function is used and when the request panics. With a second declaration of the name of the function or of its container the code picks the first one: names in the body of a function with a forward declaration are looked up in the declaration, an earlier variable of that name is a panic, and in methods of a methodmap that shares its name with an enum nothing is found (witnesses)."
  },
  {
   "property": "C61",
   "status": "partial",
   "theorems": [
    "Verif.Props.ItemTree.item_tree_partial",
    "Verif.Props.ItemTree.item_tree_refuted",
    "Verif.Props.ItemTree.unnamed_enums_distinct"
   ],
   "note": "Proved for every tree in which each macro definition stands where items stand; violated otherwise (a definition inside a part the parser could not read makes the server panic). What the grammar attaches to nodes (named children, text, types) is a parameter."
  },
  {
   "property": "C62",
   "status": "partial",
   "theorems": [
    "Verif.Props.MacroDef.goto_macro_partial",
    "Verif.Props.MacroDef.goto_macro_found_partial",
    "Verif.Props.Hover.goto_use_partial",
    "Verif.Props.MacroDef.goto_macro_ghost_refuted",
    "Verif.Props.MacroDef.goto_macro_lines_refuted",
    "Verif.Props.MacroDef.goto_macro_unnamed_refuted",
    "Verif.Props.MacroDef.goto_macro_error_refuted"
   ],
   "note": "Proved for runs that end normally: the answer is the definition in force of the name of a token that was read at this place. goto_use_partial: from the source to the answer, every use in code (calls included) and in conditions is found (same files as in C29). Violated by the code when an expansion leaves a macro name to be read, when a call spans lines, by a #define without a name and after a preprocessing error."
  },
  {
   "property": "C63",
   "status": "partial",
   "theorems": [
    "Verif.Props.Loader.folder_load_exact",
    "Verif.Props.Loader.folder_load_once",
    "Verif.Props.Loader.folder_watch_agrees",
    "Verif.Props.Loader.files_load",
    "Verif.Props.Loader.load_iff_contains_partial",
    "Verif.Props.Loader.load_once",
    "Verif.Props.Loader.load_excluded_refuted",
    "Verif.Props.Loader.load_excluded_file_refuted"
   ],
   "note": "Proved for workspace folders. For arbitrary include and exclude lists proved if nothing is both included and excluded and no excluded path is itself a file with one of the extensions; refuted otherwise. Symbolic links: C104."
  },
  {
   "property": "C64",
   "status": "proved",
   "theorems": [
    "Verif.Props.Loading.loading_no_panic",
    "Verif.Props.Loading.quiescent_means_loaded",
    "Verif.Props.Loading.loaded_means_quiescent",
    "Verif.Props.Loading.progress_legal",
    "Verif.Props.Loading.never_stuck"
   ],
   "note": "For all interleavings of client, disk, loader thread and main loop."
  },
  {
   "property": "C65",
   "status": "proved",
   "theorems": [
    "Verif.Props.Loading.diagnostics_fresh"
   ],
   "note": "For all interleavings. What a diagnostics job computes is not part of this claim."
  },
  {
   "property": "C66",
   "status": "proved",
   "theorems": [
    "Verif.Props.Loading.follows_disk"
   ],
   "note": "For all interleavings; changes count as reported when the client has sent didChangeWatchedFiles for the path."
  },
  {
   "property": "C67",
   "status": "partial",
   "theorems": [
    "Verif.Props.Loader.watch_exact",
    "Verif.Props.Loader.watch_follows_partial",
    "Verif.Props.Loader.watch_deleted_refuted"
   ],
   "note": "Holds for files that still exist; an event for a deleted file is dropped, so the server keeps its contents until the client reports the deletion."
  },
  {
   "property": "C68",
   "status": "partial",
   "theorems": [
    "Verif.Props.Infer.members_exact_partial",
    "Verif.Props.Infer.type_exact_partial",
    "Verif.Props.Infer.one_verdict",
    "Verif.Props.Infer.attribute_exact_partial",
    "Verif.Props.Infer.method_exact_partial",
    "Verif.Props.Infer.shadowed_type_refuted",
    "Verif.Props.Infer.vector_refuted",
    "Verif.Props.Infer.unheard_refuted",
    "Verif.Props.Body.member_leads_partial",
    "Verif.Props.Body.method_leads_partial",
    "Verif.Props.Body.lowered_distinct"
   ],
   "note": "Exact for bodies in which no local variable has the name of a type in use, no one-dimensional array type is indexed and named arguments only occur in calls of known functions and of methods of enum structs. Refuted otherwise (witnesses). What names stand for in a block and the members of types are parameters (C41-C46, C58). Body.* carry the result from syntax trees to the names in them, and show that numbers of expressions are distinct in every lowered body."
  },
  {
   "property": "C69",
   "status": "partial",
   "theorems": [
    "Verif.Props.Infer.named_exact_partial",
    "Verif.Props.Infer.named_resolution_partial",
    "Verif.Props.Infer.methodmap_named_refuted",
    "Verif.Props.Infer.constructor_named_refuted",
    "Verif.Props.Body.lowered_distinct"
   ],
   "note": "Exact for calls of functions by name and of methods of enum structs. Refuted: named arguments of methods of methodmaps lead nowhere, those of constructors are looked up in the call around."
  },
  {
   "property": "C70",
   "status": "proved",
   "theorems": [
    "Verif.Props.Body.findings_shown"
   ],
   "note": "For every tree in which the arguments of a call are call_arguments and no statement stands in parentheses or in an argument list (proper), which the grammar guarantees. No panic of expect(\"no matching source\")."
  },
  {
   "property": "C71",
   "status": "partial",
   "theorems": [
    "Verif.Props.Body.analysed_partial",
    "Verif.Props.Body.member_leads_partial",
    "Verif.Props.Body.method_leads_partial",
    "Verif.Props.Body.loop_refuted",
    "Verif.Props.Body.literal_refuted",
    "Verif.Props.Body.ignored_refuted",
    "Verif.Props.Literals.int_read",
    "Verif.Props.Literals.float_read",
    "Verif.Props.Literals.bool_read"
   ],
   "note": "For clean trees (shapes of the grammar; all three parts of a for are there, literals are decimal, no `_` argument). Refuted otherwise: nothing in `for (;;) {...}` is analysed; `f(0x10)` and `f(_)` count no argument. Literals.*: which literals are read, for every text."
  },
  {
   "property": "C72",
   "status": "partial",
   "theorems": [
    "Verif.Props.Body.lowering_partial",
    "Verif.Props.Body.called_refuted"
   ],
   "note": "For trees in which what is called is a name or a member and parameters are of the expected kinds. Refuted otherwise: unreachable!() and todo!()."
  },
  {
   "property": "C73",
   "status": "proved",
   "theorems": [
    "Verif.Props.Process.output_complete",
    "Verif.Props.Process.output_prefix",
    "Verif.Props.Process.ends_iff",
    "Verif.Props.Process.waits_for_open",
    "Verif.Props.Process.ready_is_read",
    "Verif.Props.Process.sent_complete"
   ],
   "note": "The Unix implementation. Decoding is a parameter; assumed of from_utf8_lossy: a line feed separates (Decodes), which ascii_decodes shows for ASCII. An error of poll or read ends the reading with an error."
  },
  {
   "property": "C74",
   "status": "partial",
   "theorems": [
    "Verif.Props.Config.settings_read",
    "Verif.Props.Config.means_unique",
    "Verif.Props.Config.settings_last_partial",
    "Verif.Props.Config.settings_start_partial",
    "Verif.Props.Config.settings_kept",
    "Verif.Props.Config.removal_refuted",
    "Verif.Props.Config.silent_refuted",
    "Verif.Props.Config.absolute_used",
    "Verif.Props.Config.relative_refuted"
   ],
   "note": "For settings other than null and {}. Refuted: an answer {} keeps the old settings; invalid values are never reported; relative include directories have no effect."
  },
  {
   "property": "C75",
   "status": "partial",
   "theorems": [
    "Verif.Props.Workers.workers_current_partial",
    "Verif.Props.Workers.save_partial",
    "Verif.Props.Workers.save_start_partial",
    "Verif.Props.Workers.save_off",
    "Verif.Props.Workers.startup_refuted",
    "Verif.Props.Workers.new_project_refuted",
    "Verif.Props.Workers.unset_refuted"
   ],
   "note": "As long as files and includes do not change after the workers were made. Refuted: the workers are made at start-up before any file is loaded, so saving compiles nothing until the settings of the compiler change; a new project has no worker; unsetting the compiler leaves the old one active."
  },
  {
   "property": "C76",
   "status": "partial",
   "theorems": [
    "Verif.Props.FileDiag.syntax_shown",
    "Verif.Props.FileDiag.preprocessor_shown",
    "Verif.Props.FileDiag.bodies_partial",
    "Verif.Props.FileDiag.methods_refuted",
    "Verif.Props.FileDiag.place_partial",
    "Verif.Props.FileDiag.place_refuted"
   ],
   "note": "Findings in functions, typedefs and functags, on lines where uses of macros have the length of their expansion. Refuted: bodies of methods are never analysed; ranges of the preprocessed text are not mapped back, so that findings after a macro on the line are shown elsewhere. What is found in a body is C70-C72."
  },
  {
   "property": "C77",
   "status": "partial",
   "theorems": [
    "Verif.Props.Hover.hover_line",
    "Verif.Props.Hover.hover_partial",
    "Verif.Props.Hover.hover_refuted",
    "Verif.Props.Hover.condition_refuted",
    "Verif.Props.Hover.argument_refuted"
   ],
   "note": "hover_line: any line whose offsets describe it, macros with arguments included. hover_partial: from the source to the answer for files of code, definitions, includes, conditional directives and code that is not compiled, with uses of macros and with calls on one line, also of macros that call others, expansions nested at most four deep (C24). argument_refuted: nothing is shown for macros in arguments of a call. condition_refuted: in a condition no expansion is shown. hover_refuted: after the use of an empty macro on the line the wrong text is shown (the dropped blank is not counted, as in C29)."
  },
  {
   "property": "C78",
   "status": "partial",
   "theorems": [
    "Verif.Props.Highlight.highlight_mem",
    "Verif.Props.Highlight.highlight_partial",
    "Verif.Props.Highlight.full_partial",
    "Verif.Props.Highlight.full_refuted",
    "Verif.Props.Highlight.order_refuted",
    "Verif.Props.Highlight.condition_refuted",
    "Verif.Props.Highlight.argument_refuted"
   ],
   "note": "highlight_mem: for all recorded offsets. highlight_partial: from the source to the answer to a request for a range, for files of code, definitions, includes, conditional directives and code that is not compiled, with uses of macros and with calls on one line. full_partial: the whole file, where the range of the preprocessed text covers the beginnings of the uses. argument_refuted: macros in arguments of a call are not highlighted. full_refuted: a request for the whole file uses the range of the preprocessed text and misses uses at the end of the last line. order_refuted: a name of a macro with parameters left twice in an expansion is recorded with a made-up range; the subtraction in the encoding overflows. condition_refuted: macros after an undefined name in a condition are not highlighted."
  },
  {
   "property": "C79",
   "status": "partial",
   "theorems": [
    "Verif.Props.Docs.docs_above",
    "Verif.Props.Docs.docs_own_partial",
    "Verif.Props.Docs.block_text_partial",
    "Verif.Props.Docs.line_text_partial",
    "Verif.Props.Docs.trailing_refuted",
    "Verif.Props.Docs.variable_refuted",
    "Verif.Props.Docs.text_refuted"
   ],
   "note": "docs_above: for all siblings, exactly the comments of the block above are shown, in order. docs_own_partial needs that comments are alone on their lines; trailing_refuted: the comment at the end of the previous statement is shown otherwise. variable_refuted: comments above variables are never shown. block_text_partial and line_text_partial: the text is unchanged, except for the texts of text_refuted. The conversion to Markdown is C85."
  },
  {
   "property": "C80",
   "status": "partial",
   "theorems": [
    "Verif.Props.Goto.goto_partial",
    "Verif.Props.Goto.goto_macro_partial",
    "Verif.Props.Goto.goto_argument_partial",
    "Verif.Props.Goto.goto_argument_refuted",
    "Verif.Props.Goto.goto_comment_refuted",
    "Verif.Props.Goto.definition_place",
    "Verif.Props.Goto.goto_full_refuted"
   ],
   "note": "Proved for files of code, uses of macros, calls on one line, definitions, includes and conditional directives: underlined range, name of the target, and range of definitions on one line. Refuted: the end of a definition over several lines is shifted by the macros of its first line. Names in arguments are followed (goto_argument_partial), but not below an evaluated condition (goto_argument_refuted) or a comment of several lines (goto_comment_refuted). Missing: names written by an expansion."
  },
  {
   "property": "C81",
   "status": "partial",
   "theorems": [
    "Verif.Props.Columns.token_partial",
    "Verif.Props.Columns.token_exact",
    "Verif.Props.Columns.token_refuted"
   ],
   "note": "Proved with UTF-8, or if there are only ASCII characters before the end of the token; refuted exactly elsewhere (with UTF-16, the default, columns of requests are used as byte columns of the syntax tree and the other way round). Texts without macros; with macros see C29 and C80, whose columns count characters."
  },
  {
   "property": "C82",
   "status": "partial",
   "theorems": [
    "Verif.Props.Pool.in_order_partial",
    "Verif.Props.Pool.begun_in_order",
    "Verif.Props.Pool.intent_and_bound",
    "Verif.Props.Pool.begun_accounted",
    "Verif.Props.Pool.own_bounded",
    "Verif.Props.Pool.all_done_partial",
    "Verif.Props.Pool.drop_waits_partial",
    "Verif.Props.Pool.workers_used_up_refuted"
   ],
   "note": "Proved for histories in which fewer jobs panicked than there are threads. False otherwise: the computation of diagnostics and the filling of caches do not catch panics, each panic ends a thread for good, and when none is left handing over any work panics in the main loop (shown for every number of threads)."
  },
  {
   "property": "C83",
   "status": "proved",
   "theorems": [
    "Verif.Props.Snapshot.one_moment",
    "Verif.Props.Snapshot.moment_of_request",
    "Verif.Props.Snapshot.moment_of_request_refuted",
    "Verif.Props.Snapshot.answered_at_rest",
    "Verif.Props.Snapshot.comes_to_rest"
   ],
   "note": "The moment is that of the request if nothing was cancelled (moment_of_request); in general it can be later (moment_of_request_refuted: a request cancelled by an edit is tried again, with its old position, on the new text). The database follows the virtual file system at once here; C06 says when."
  },
  {
   "property": "C84",
   "status": "partial",
   "theorems": [
    "Verif.Props.Snapshot.current_at_rest_partial",
    "Verif.Props.Snapshot.subscriptions_found",
    "Verif.Props.Snapshot.stale_refuted"
   ],
   "note": "Proved for histories in which a result is in the channel before the next change is written. False in general: a worker drops its snapshot before it sends the result, so that a newer result can overtake an older one, which then stays."
  },
  {
   "property": "C85",
   "status": "partial",
   "theorems": [
    "Verif.Props.Markdown.all_shown",
    "Verif.Props.Markdown.nothing_added",
    "Verif.Props.Markdown.rendered_partial",
    "Verif.Props.Markdown.comments_partial",
    "Verif.Props.Inline.inline_partial",
    "Verif.Props.Inline.deprecated_partial",
    "Verif.Props.Markdown.layout_partial",
    "Verif.Props.Markdown.layout_refuted",
    "Verif.Props.Markdown.no_description_refuted",
    "Verif.Props.Markdown.glued_refuted",
    "Verif.Props.Markdown.escape_refuted"
   ],
   "note": "No text is lost or added, for every text. The exact rendering is proved for documentation in which every tag has a description and no text contains characters with a meaning of their own, and for comments of one line each of such texts (comments_partial); inline_partial and deprecated_partial: calls, brackets and the word DEPRECATED in texts without stars and tags. False of the code otherwise: a parameter without description swallows the paragraph that follows, lines without a space behind the star are glued, a backslash before < undoes its escaping, a line of three backticks in the definition ends the code (witnesses)."
  },
  {
   "property": "C86",
   "status": "partial",
   "theorems": [
    "Verif.Props.Compile.progress_partial",
    "Verif.Props.Compile.busy_runs",
    "Verif.Props.Compile.status_partial",
    "Verif.Props.Compile.cancel_reaches",
    "Verif.Props.Compile.cancel_other",
    "Verif.Props.Compile.others_apart",
    "Verif.Props.Compile.cancel_stops",
    "Verif.Props.Compile.titles_differ",
    "Verif.Props.Compile.progress_refuted",
    "Verif.Props.Compile.status_refuted"
   ],
   "note": "Proved for histories in which no workers are replaced while a task still holds the old ones: progress for any number of projects, cancelling for any, the status for at most one project (for several, only that a busy status is never stuck). False otherwise: with two projects the end of one compiler reports that none is at work (status_refuted); a worker replaced during a save and its successor share a token (progress_refuted)."
  },
  {
   "property": "C87",
   "status": "partial",
   "theorems": [
    "Verif.Props.NameDef.declaration_partial",
    "Verif.Props.NameDef.accessor_partial",
    "Verif.Props.NameDef.local_partial",
    "Verif.Props.NameDef.signature_partial",
    "Verif.Props.NameDef.macro_inside_crashes",
    "Verif.Props.NameDef.other_names_crash",
    "Verif.Props.NameDef.name_refuted"
   ],
   "note": "Proved for all kinds of declarations of a file and its types, for getters and setters, and for macros outside of functions. For local variables and parameters (also those of typedefs, functags and members of typesets and funcenums) the answer is the entry of the map of their function or signature under this node (what is in the map is C98). Members a methodmap inherits are taken as in C59. False of the code: the name of a macro defined inside a function and names in nodes of other kinds (struct declarations) panic (macro_inside_crashes, other_names_crash, name_refuted)."
  },
  {
   "property": "C88",
   "status": "partial",
   "theorems": [
    "Verif.Props.Outside.sound",
    "Verif.Props.Outside.no_crash",
    "Verif.Props.Outside.crashes_alike",
    "Verif.Props.Outside.nameless_typedef",
    "Verif.Props.Outside.sole_partial",
    "Verif.Props.Outside.methodmap_found",
    "Verif.Props.Outside.own_function_found",
    "Verif.Props.Outside.in_typedef",
    "Verif.Props.Outside.in_native",
    "Verif.Props.Outside.elsewhere_refuted",
    "Verif.Props.Outside.type_refuted"
   ],
   "note": "Soundness and absence of panics for every place at the top level of a file. A name declared once is found in typedefs and in members without body whatever it is; elsewhere if it is a macro, a variable, an enum or entry, an enum struct, a methodmap, or a function of the same file. False of the code for functions of other files and for typedefs, typesets, functags and funcenums (elsewhere_refuted, type_refuted, for every project): the match of source_node_to_def drops them. A root that is not a source file (a text the parser cannot make anything of) is not covered."
  },
  {
   "property": "C89",
   "status": "partial",
   "theorems": [
    "Verif.Props.InferScope.agree_partial",
    "Verif.Props.InferScope.inferred_exact",
    "Verif.Props.InferScope.rule_partial",
    "Verif.Props.InferScope.adjacent_refuted",
    "Verif.Props.InferScope.this_refuted",
    "Verif.Props.InferScope.bare_for_refuted"
   ],
   "note": "Proved for every identifier other than this in bodies without a for that leaves out its condition or iteration, if no block ends right at the identifier. What the analysis takes a name for is given exactly, also without the last condition (inferred_exact, rule_partial). False of the code: right behind a block the navigation looks into that block and the analysis does not (adjacent_refuted); this in a member of a file with a global variable this (this_refuted); the content of a for (;;) is not analysed (bare_for_refuted)."
  },
  {
   "property": "C90",
   "status": "partial",
   "theorems": [
    "Verif.Props.Graphviz.picture_partial",
    "Verif.Props.Graphviz.picture_iff",
    "Verif.Props.Graphviz.colours",
    "Verif.Props.Graphviz.arrow_refuted",
    "Verif.Props.Dot.text_partial",
    "Verif.Props.Dot.text_refuted"
   ],
   "note": "Everything but that all inclusions are drawn, for every graph and every order of the hash sets: a cluster and a diamond per main file and no others, arrows only for inclusions, an arrow to every file of the project, every file led to from the main file. False of the code: the arrows of a project make a tree, so of several files of a project that include the same file only one has an arrow to it, and an inclusion of the main file has none (arrow_refuted). Files with the same name are one node of the picture. The text is read as the lines stand for if no name has quotes or ends with a backslash (text_partial); a name with a quote is not found in the text (text_refuted), because nothing is escaped."
  },
  {
   "property": "C91",
   "status": "partial",
   "theorems": [
    "Verif.Props.HoverDef.agree",
    "Verif.Props.HoverDef.hover_partial",
    "Verif.Props.HoverDef.macro_text",
    "Verif.Props.HoverDef.text_refuted"
   ],
   "note": "At every position of every file there is something to show exactly if there is a definition to go to, and both underline the same range (agree). For files of the class of C80 the text shown is the one of the declaration in the source, tabs shown as spaces, if no macro is used in the lines of the declaration. False of the code: in a declaration with a macro the expansion is shown instead of what is written (text_refuted). For a macro its directive and the expansion of C77 are shown (macro_text)."
  },
  {
   "property": "C92",
   "status": "partial",
   "theorems": [
    "Verif.Props.Reports.reported_partial",
    "Verif.Props.Reports.shown_partial",
    "Verif.Props.Reports.place_refuted",
    "Verif.Props.Reports.line_refuted",
    "Verif.Props.Reports.operator_refuted"
   ],
   "note": "For every well-nested file whose macros contain no directives, all three kinds of reports: exactly the missing #includes of the selected text, in order, with name and line, and with the exact columns if the directive starts its line; exactly one report per condition that is asked for and has no value; unknown names only there. The line of a condition report is that of the directive if the condition and the macro definitions are written on one line each. False of the code: the columns of an indented #include are those in its own text (place_refuted), and a condition whose macro is defined on several lines is reported on another line (line_refuted), and when operators are nested an operator that has its operands may be marked instead of the one that lacks one (operator_refuted). A condition that uses no macro is reported at one of its own tokens, the unknown name if there is one; a condition with an unknown name always at one of its own tokens. A condition of values, operators and parentheses is reported at one of its operators or at an opening parenthesis. The columns of other condition reports are not specified."
  },
  {
   "property": "C93",
   "status": "partial",
   "theorems": [
    "Verif.Props.Settings.settings_arrive_partial",
    "Verif.Props.Settings.answers_harmless",
    "Verif.Props.Settings.settles",
    "Verif.Props.Settings.push_refuted",
    "Verif.Props.Settings.first_refuted"
   ],
   "note": "For every history of a client that can be asked for its settings: whenever nothing is under way the settings in effect are those the client has (other than null and {}, see C74), everything under way can always be handled, and no answer panics. False of the code: a client that cannot be asked and pushes its settings is ignored (push_refuted, for every start); in AMXX mode the settings for SourcePawn are used until the first change (first_refuted)."
  },
  {
   "property": "C94",
   "status": "proved",
   "theorems": [
    "Verif.Props.Indexing.progress_wellformed",
    "Verif.Props.Indexing.progress_ends",
    "Verif.Props.Indexing.report_text",
    "Verif.Props.Indexing.percentage_exact"
   ],
   "note": "The main loop, the job (with Ide/Prime inside) and its workers as a transition system with unbounded channel; protocol as an inductive specification. That the conversion of the floating-point fraction is monotone and at most 100 is a hypothesis (Percentage), met by the exact percentage. Jobs that panic are left out (C82)."
  },
  {
   "property": "C95",
   "status": "partial",
   "theorems": [
    "Verif.Props.Lifecycle.handled_once",
    "Verif.Props.Lifecycle.ends_at_exit",
    "Verif.Props.Lifecycle.requests_dispatched",
    "Verif.Props.Lifecycle.survives_partial",
    "Verif.Props.Lifecycle.survives_refuted",
    "Verif.Props.Lifecycle.status_refuted"
   ],
   "note": "Handlers are parameters. Survival is for clients that keep to the protocol (survives_refuted: malformed notification parameters and unexpected responses bring the server down) and handlers that do not panic (C64 for documents). The exit status is always 0 (status_refuted)."
  },
  {
   "property": "C96",
   "status": "partial",
   "theorems": [
    "Verif.Props.Pretty.shown_partial",
    "Verif.Props.Pretty.shown_typed_partial",
    "Verif.Props.Pretty.shown_refuted"
   ],
   "note": "For trees of the grammar with macros placed as the preprocessor leaves them: the exact text shows the declarations of the source, less parameters without a type; everything when all parameters have one. Refuted otherwise: the parameter of `f(x)` is not shown."
  },
  {
   "property": "C97",
   "status": "partial",
   "theorems": [
    "Verif.Props.MainPath.main_path_partial",
    "Verif.Props.MainPath.main_path_refuted"
   ],
   "note": "An answer exists exactly for known documents and is a document from which the file is reached. It is one nobody includes if all including documents above the file are such. False otherwise: an included file that includes something may be the answer, depending on the order of a hash map (main_path_refuted)."
  },
  {
   "property": "C98",
   "status": "partial",
   "theorems": [
    "Verif.Props.Params.params_known",
    "Verif.Props.Params.params_lead",
    "Verif.Props.BodyOf.own",
    "Verif.Props.BodyOf.own_params",
    "Verif.Props.Params.locals_known_partial",
    "Verif.Props.Body.loop_refuted"
   ],
   "note": "own_params is from the declaration as written (functions, methods, getters, setters, typedefs, functags, members of typesets), with or without block. For trees in which the arguments of a call are call_arguments and no statement stands in parentheses or in an argument list (proper), as the grammar guarantees. Local variables: for clean trees (as C71). False of the code otherwise: what is declared in a for that leaves out a part is lost (loop_refuted). A panic (todo!) is C72."
  },
  {
   "property": "C99",
   "status": "partial",
   "theorems": [
    "Verif.Props.Written.type_shown_partial",
    "Verif.Props.Written.type_iff",
    "Verif.Props.Written.type_refuted",
    "Verif.Props.Written.visibility_written",
    "Verif.Props.Written.kind_written"
   ],
   "note": "Types, kind and visibility for all lists of nodes. The word Float is the exception for types: it is kept and shown as float (type_refuted)."
  }
 ]
}