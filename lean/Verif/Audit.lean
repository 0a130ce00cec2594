import Verif.Props.Announced
import Verif.Props.Arity
import Verif.Props.Body
import Verif.Props.BodyOf
import Verif.Props.Choice
import Verif.Props.Columns
import Verif.Props.Compile
import Verif.Props.Conditional
import Verif.Props.Config
import Verif.Props.DbSync
import Verif.Props.Define
import Verif.Props.Diagnostics
import Verif.Props.Dispatch
import Verif.Props.Docs
import Verif.Props.Dot
import Verif.Props.Editor
import Verif.Props.EnumStruct
import Verif.Props.EvalLoop
import Verif.Props.EvalParen
import Verif.Props.EvalTerm
import Verif.Props.EvalUse
import Verif.Props.Evaluator
import Verif.Props.FileDiag
import Verif.Props.FindDef
import Verif.Props.Flycheck
import Verif.Props.Globals
import Verif.Props.Goto
import Verif.Props.GotoInclude
import Verif.Props.Graph
import Verif.Props.Graphviz
import Verif.Props.HashMap
import Verif.Props.Highlight
import Verif.Props.Hover
import Verif.Props.HoverDef
import Verif.Props.IncludeFile
import Verif.Props.IncludeRun
import Verif.Props.Indexing
import Verif.Props.Infer
import Verif.Props.InferScope
import Verif.Props.Inline
import Verif.Props.ItemTree
import Verif.Props.Lifecycle
import Verif.Props.LineEndings
import Verif.Props.Lines
import Verif.Props.LinesCall
import Verif.Props.Links
import Verif.Props.Literals
import Verif.Props.Loader
import Verif.Props.Loading
import Verif.Props.Logging
import Verif.Props.Lookup
import Verif.Props.MacroArgs
import Verif.Props.MacroCall
import Verif.Props.MacroDeep
import Verif.Props.MacroDef
import Verif.Props.MacroLeft
import Verif.Props.MacroTerm
import Verif.Props.Macros
import Verif.Props.MainLoop
import Verif.Props.MainPath
import Verif.Props.Markdown
import Verif.Props.Methodmap
import Verif.Props.NameDef
import Verif.Props.Offered
import Verif.Props.Offsets
import Verif.Props.OpQueue
import Verif.Props.Outside
import Verif.Props.Params
import Verif.Props.Paths
import Verif.Props.Picked
import Verif.Props.Pool
import Verif.Props.Position
import Verif.Props.Pretty
import Verif.Props.Prime
import Verif.Props.Process
import Verif.Props.Profile
import Verif.Props.ProjectText
import Verif.Props.Reply
import Verif.Props.Reports
import Verif.Props.Resolve
import Verif.Props.Rewrite
import Verif.Props.Scope
import Verif.Props.Selection
import Verif.Props.SemTokens
import Verif.Props.Settings
import Verif.Props.Snapshot
import Verif.Props.SpComp
import Verif.Props.Startup
import Verif.Props.Status
import Verif.Props.TextSync
import Verif.Props.Tree
import Verif.Props.Turn
import Verif.Props.Url
import Verif.Props.Usage
import Verif.Props.Versions
import Verif.Props.Vfs
import Verif.Props.Workers
import Verif.Props.Written
/-! Axioms of every theorem listed in MANIFEST.json (generated). -/

#print axioms Verif.Props.TextSync.sync_correct_partial
#print axioms Verif.Props.TextSync.sync_refuted_ranged_before_full
#print axioms Verif.Props.TextSync.sync_refuted_column_past_end
#print axioms Verif.Props.TextSync.index_reuse_invisible
#print axioms Verif.Props.TextSync.index_reuse_inverted_range_refuted
#print axioms Verif.Props.LineEndings.normalize_correct
#print axioms Verif.Props.LineEndings.normalize_removes_pairs
#print axioms Verif.Props.LineEndings.normalize_not_idempotent
#print axioms Verif.Props.Vfs.file_id_stable
#print axioms Verif.Props.Vfs.file_id_injective
#print axioms Verif.Props.Vfs.file_path_stable
#print axioms Verif.Props.Vfs.vfs_refines_map
#print axioms Verif.Props.Vfs.vfs_reads_last_write
#print axioms Verif.Props.Vfs.vfs_iter_exact
#print axioms Verif.Props.DbSync.db_follows_vfs_partial
#print axioms Verif.Props.DbSync.db_follows_vfs_refuted
#print axioms Verif.Props.Editor.open_docs_win
#print axioms Verif.Props.Editor.closed_docs_follow_disk
#print axioms Verif.Props.Paths.includes_iff
#print axioms Verif.Props.Paths.contains_file_correct
#print axioms Verif.Props.Paths.includes_order
#print axioms Verif.Props.Paths.normalize_correct
#print axioms Verif.Props.Paths.normalize_idempotent
#print axioms Verif.Props.Paths.normalize_eq_iff
#print axioms Verif.Props.Paths.parent_correct
#print axioms Verif.Props.Paths.join_correct
#print axioms Verif.Props.Paths.name_correct
#print axioms Verif.Props.Paths.name_trailing_slash
#print axioms Verif.Props.Paths.prefix_partial
#print axioms Verif.Props.Paths.prefix_refuted
#print axioms Verif.Props.Paths.join_dot_dotdot_refuted
#print axioms Verif.Props.GotoInclude.quoted_partial
#print axioms Verif.Props.GotoInclude.without_path
#print axioms Verif.Props.GotoInclude.chevron_partial
#print axioms Verif.Props.GotoInclude.quotes_refuted
#print axioms Verif.Props.Url.sent_names
#print axioms Verif.Props.Url.round_trip
#print axioms Verif.Props.Url.answered
#print axioms Verif.Props.Url.told_apart
#print axioms Verif.Props.Url.spelling_refuted
#print axioms Verif.Props.Url.scheme_refuted
#print axioms Verif.Props.EvalUse.condition_with_definitions_partial
#print axioms Verif.Props.EvalUse.condition_like_replaced_partial
#print axioms Verif.Props.EvalParen.nested_refuted
#print axioms Verif.Props.Rewrite.analysed_text_partial
#print axioms Verif.Props.MacroLeft.call_after_condition_refuted
#print axioms Verif.Props.Links.walk_ends
#print axioms Verif.Props.Links.folder_links_exact
#print axioms Verif.Props.Links.folder_links_names_once
#print axioms Verif.Props.Links.every_file_found
#print axioms Verif.Props.Links.once_partial
#print axioms Verif.Props.Links.git_partial
#print axioms Verif.Props.Links.twice_refuted
#print axioms Verif.Props.Links.git_refuted
#print axioms Verif.Props.Selection.selection_partial
#print axioms Verif.Props.Selection.selection_plain
#print axioms Verif.Props.Selection.last_line_refuted
#print axioms Verif.Props.Selection.expansion_refuted
#print axioms Verif.Props.Turn.tokens_again
#print axioms Verif.Props.Turn.tokens_never
#print axioms Verif.Props.Turn.one_indexing
#print axioms Verif.Props.Turn.indexing_starts
#print axioms Verif.Props.Turn.indexing_only
#print axioms Verif.Props.Versions.version_partial
#print axioms Verif.Props.Versions.version_calm_partial
#print axioms Verif.Props.Versions.version_refuted
#print axioms Verif.Props.Reply.goto_reply
#print axioms Verif.Props.Reply.goto_none
#print axioms Verif.Props.Reply.understood
#print axioms Verif.Props.Announced.understood_iff
#print axioms Verif.Props.Announced.understood_partial
#print axioms Verif.Props.Announced.used
#print axioms Verif.Props.Announced.understood_refuted
#print axioms Verif.Props.Announced.plain_refuted
#print axioms Verif.Props.DbSync.partition_correct
#print axioms Verif.Props.IncludeFile.project_file_exact
#print axioms Verif.Props.IncludeFile.project_file_partial
#print axioms Verif.Props.IncludeFile.readFor_unique
#print axioms Verif.Props.IncludeFile.project_file_refuted
#print axioms Verif.Props.Offered.offered_handled
#print axioms Verif.Props.Offered.not_offered
#print axioms Verif.Props.Offered.documents_followed
#print axioms Verif.Props.Offered.sync_announced
#print axioms Verif.Props.Offered.encoding_announced
#print axioms Verif.Props.Offered.tokens_named
#print axioms Verif.Props.Offered.macros_named
#print axioms Verif.Props.Lookup.open_found_partial
#print axioms Verif.Props.Lookup.at_rest_partial
#print axioms Verif.Props.Lookup.fails_iff
#print axioms Verif.Props.Lookup.opened_refuted
#print axioms Verif.Props.Lookup.deleted_refuted
#print axioms Verif.Props.ProjectText.plugin_partial
#print axioms Verif.Props.ProjectText.some_plugin
#print axioms Verif.Props.ProjectText.main_exact
#print axioms Verif.Props.ProjectText.main_starts_empty
#print axioms Verif.Props.ProjectText.split_refuted
#print axioms Verif.Props.ProjectText.told_refuted
#print axioms Verif.Props.Profile.report_exact
#print axioms Verif.Props.Profile.reports_unique
#print axioms Verif.Props.Profile.summary_unique
#print axioms Verif.Props.Profile.disabled
#print axioms Verif.Props.Logging.crates_partial
#print axioms Verif.Props.Logging.passes_iff
#print axioms Verif.Props.Logging.verbosity_mono
#print axioms Verif.Props.Logging.log_exact
#print axioms Verif.Props.Logging.log_partial
#print axioms Verif.Props.Logging.quiet_refuted
#print axioms Verif.Props.Logging.flycheck_refuted
#print axioms Verif.Props.Logging.max_refuted
#print axioms Verif.Props.Logging.log_refuted
#print axioms Verif.Props.Usage.usage_exact
#print axioms Verif.Props.Usage.shown_close
#print axioms Verif.Props.Usage.shown_mono
#print axioms Verif.Props.Usage.shown_neg
#print axioms Verif.Props.Usage.line_exact
#print axioms Verif.Props.Status.status_exact
#print axioms Verif.Props.Status.status_order
#print axioms Verif.Props.Status.status_total
#print axioms Verif.Props.DbSync.process_never_panics_partial
#print axioms Verif.Props.DbSync.process_panics_on_recreate_refuted
#print axioms Verif.Props.DbSync.process_panics_outside_roots_refuted
#print axioms Verif.Props.DbSync.process_panics_outside_roots
#print axioms Verif.Props.Graph.project_is_reachable
#print axioms Verif.Props.Graph.search_terminates
#print axioms Verif.Props.Graph.every_file_has_project
#print axioms Verif.Props.Graph.project_depends_on_order_refuted
#print axioms Verif.Props.Graph.roots_partial
#print axioms Verif.Props.Graph.roots_refuted
#print axioms Verif.Props.Resolve.quoted_include_partial
#print axioms Verif.Props.Resolve.quoted_include_refuted
#print axioms Verif.Props.Resolve.chevron_include
#print axioms Verif.Props.Resolve.no_name_no_include
#print axioms Verif.Props.Resolve.infer_ext_correct
#print axioms Verif.Props.Resolve.infer_ext_idempotent
#print axioms Verif.Props.IncludeRun.cyclic_includes_terminate
#print axioms Verif.Props.Conditional.conditional_compilation
#print axioms Verif.Props.Choice.conditional_compilation_meaning
#print axioms Verif.Props.Lines.line_count_partial
#print axioms Verif.Props.Lines.line_kept_partial
#print axioms Verif.Props.LinesCall.line_count_calls_partial
#print axioms Verif.Props.Lines.line_count_comment_refuted
#print axioms Verif.Props.Lines.line_count_call_refuted
#print axioms Verif.Props.Lines.line_count_open_refuted
#print axioms Verif.Props.Lines.line_count_undef_refuted
#print axioms Verif.Props.Evaluator.condition_value
#print axioms Verif.Props.Evaluator.condition_value_checked
#print axioms Verif.Props.EvalTerm.evaluation_terminates_partial
#print axioms Verif.Props.EvalUse.condition_like_replaced_partial
#print axioms Verif.Props.Evaluator.evaluation_terminates_refuted
#print axioms Verif.Props.EvalLoop.names_only_refuted
#print axioms Verif.Props.EvalTerm.evaluation_never_panics_partial
#print axioms Verif.Props.EvalParen.evaluation_never_panics_nested_partial
#print axioms Verif.Props.EvalUse.evaluation_never_panics_replaced_partial
#print axioms Verif.Props.EvalParen.nested_refuted
#print axioms Verif.Props.Evaluator.evaluation_panics_division_refuted
#print axioms Verif.Props.Evaluator.evaluation_panics_paren_refuted
#print axioms Verif.Props.Evaluator.malformed_unreported_refuted
#print axioms Verif.Props.MacroTerm.expand_terminates
#print axioms Verif.Props.MainLoop.preprocessing_terminates_partial
#print axioms Verif.Props.MainLoop.plain_file_terminates
#print axioms Verif.Props.MainLoop.preprocessing_terminates_refuted
#print axioms Verif.Props.Macros.object_macro_partial
#print axioms Verif.Props.MacroDeep.use_partial
#print axioms Verif.Props.Macros.nested_expansion_refuted
#print axioms Verif.Props.MacroArgs.lone_name_partial
#print axioms Verif.Props.MacroArgs.lone_name_comment_refuted
#print axioms Verif.Props.MacroArgs.lone_name_body_refuted
#print axioms Verif.Props.MacroArgs.arguments_partial
#print axioms Verif.Props.MacroArgs.bracket_commas_refuted
#print axioms Verif.Props.Define.declared_substitution
#print axioms Verif.Props.MacroArgs.substitution
#print axioms Verif.Props.MacroCall.call_partial
#print axioms Verif.Props.MacroDeep.call_partial
#print axioms Verif.Props.MacroDeep.nested_string_refuted
#print axioms Verif.Props.MacroLeft.call_after_condition_refuted
#print axioms Verif.Props.Conditional.inactive_lines_partial
#print axioms Verif.Props.Choice.inactive_lines_meaning_partial
#print axioms Verif.Props.Conditional.inactive_comment_refuted
#print axioms Verif.Props.Conditional.inactive_merge_refuted
#print axioms Verif.Props.Offsets.positions_partial
#print axioms Verif.Props.Offsets.argument_partial
#print axioms Verif.Props.Offsets.argument_line_refuted
#print axioms Verif.Props.Offsets.argument_comment_refuted
#print axioms Verif.Props.Offsets.argument_touch_refuted
#print axioms Verif.Props.Offsets.call_blank_refuted
#print axioms Verif.Props.Offsets.call_number_refuted
#print axioms Verif.Props.Offsets.inner_call_refuted
#print axioms Verif.Props.Offsets.positions_empty_refuted
#print axioms Verif.Props.Position.to_server
#print axioms Verif.Props.Position.to_user_partial
#print axioms Verif.Props.Position.round_trip_partial
#print axioms Verif.Props.Position.round_trip_empty_refuted
#print axioms Verif.Props.Position.argument_position
#print axioms Verif.Props.Dispatch.answered_once
#print axioms Verif.Props.Dispatch.all_answered_at_rest
#print axioms Verif.Props.Dispatch.outcome_answered
#print axioms Verif.Props.Dispatch.progress
#print axioms Verif.Props.Dispatch.rejected_after_shutdown_partial
#print axioms Verif.Props.Dispatch.rejected_after_shutdown_refuted
#print axioms Verif.Props.Dispatch.no_handler_after_shutdown
#print axioms Verif.Props.Dispatch.shutdown_iff
#print axioms Verif.Props.OpQueue.one_at_a_time
#print axioms Verif.Props.OpQueue.no_request_lost
#print axioms Verif.Props.Diagnostics.published_matches
#print axioms Verif.Props.Diagnostics.held_check_is_latest_run
#print axioms Verif.Props.Flycheck.runs_in_order
#print axioms Verif.Props.Flycheck.latest_run
#print axioms Verif.Props.Flycheck.latest_run_reload_refuted
#print axioms Verif.Props.SemTokens.diff_correct
#print axioms Verif.Props.SemTokens.diff_minimal
#print axioms Verif.Props.SemTokens.encode_lossless
#print axioms Verif.Props.SemTokens.delta_protocol
#print axioms Verif.Props.SemTokens.client_view_correct
#print axioms Verif.Props.SemTokens.client_view_total
#print axioms Verif.Props.Startup.no_message_lost_partial
#print axioms Verif.Props.Startup.stuck_without_configuration
#print axioms Verif.Props.Startup.empty_configuration_refuted
#print axioms Verif.Props.Prime.primed_partial
#print axioms Verif.Props.Prime.primed_one_worker
#print axioms Verif.Props.Prime.primed_refuted
#print axioms Verif.Props.SpComp.arguments_are
#print axioms Verif.Props.SpComp.command_mac
#print axioms Verif.Props.SpComp.command_refuted
#print axioms Verif.Props.Scope.local_names_partial
#print axioms Verif.Props.Scope.never_from_other_block
#print axioms Verif.Props.Scope.resolve_exact
#print axioms Verif.Props.Scope.loop_variable_refuted
#print axioms Verif.Props.Scope.second_loop_refuted
#print axioms Verif.Props.Scope.open_loop_refuted
#print axioms Verif.Props.Scope.adjacent_block_refuted
#print axioms Verif.Props.Tree.pointer_partial
#print axioms Verif.Props.Tree.pointer_sound
#print axioms Verif.Props.Tree.pointer_refuted
#print axioms Verif.Props.Tree.id_found
#print axioms Verif.Props.Tree.id_to_node
#print axioms Verif.Props.Tree.ids_distinct_partial
#print axioms Verif.Props.Tree.ids_distinct_refuted
#print axioms Verif.Props.Globals.resolves_partial
#print axioms Verif.Props.Globals.undeclared
#print axioms Verif.Props.Globals.sound
#print axioms Verif.Props.Globals.empty_iff
#print axioms Verif.Props.Globals.methodmap_first
#print axioms Verif.Props.Globals.all_functions
#print axioms Verif.Props.Globals.declared
#print axioms Verif.Props.Globals.duplicate_variable_refuted
#print axioms Verif.Props.Methodmap.lookup_member
#print axioms Verif.Props.Methodmap.data_iff
#print axioms Verif.Props.Methodmap.constructor_partial
#print axioms Verif.Props.Methodmap.constructor_refuted
#print axioms Verif.Props.Methodmap.cycle_refuted
#print axioms Verif.Props.EnumStruct.field_to_itself
#print axioms Verif.Props.EnumStruct.method_to_itself
#print axioms Verif.Props.Arity.arity_partial
#print axioms Verif.Props.Arity.single_call
#print axioms Verif.Props.Arity.unknown_callee_refuted
#print axioms Verif.Props.Arity.method_refuted
#print axioms Verif.Props.Arity.named_argument_refuted
#print axioms Verif.Props.Infer.arguments_as_arity
#print axioms Verif.Props.HashMap.hash_by_content
#print axioms Verif.Props.HashMap.hash_equal
#print axioms Verif.Props.HashMap.hash_equal_set
#print axioms Verif.Props.HashMap.equal_params_hash
#print axioms Verif.Props.Position.contains_correct
#print axioms Verif.Props.Position.offset_contains_correct
#print axioms Verif.Props.Position.intersect_correct
#print axioms Verif.Props.Startup.negotiation_correct
#print axioms Verif.Props.Diagnostics.held_native_is_last
#print axioms Verif.Props.Diagnostics.held_native_is_last_refuted
#print axioms Verif.Props.Editor.closed_has_no_diagnostics_partial
#print axioms Verif.Props.Editor.closed_has_no_diagnostics_refuted
#print axioms Verif.Props.IncludeRun.passes_agree_partial
#print axioms Verif.Props.IncludeRun.passes_agree_refuted
#print axioms Verif.Props.IncludeRun.textual_inclusion_partial
#print axioms Verif.Props.IncludeRun.textual_inclusion_refuted
#print axioms Verif.Props.IncludeFile.inclusion_exact
#print axioms Verif.Props.Resolve.copies_agree_quoted
#print axioms Verif.Props.Resolve.copies_agree_chevron
#print axioms Verif.Props.Resolve.copies_disagree_refuted
#print axioms Verif.Props.Graph.graph_is_include_relation
#print axioms Verif.Props.Graph.project_edges_sound
#print axioms Verif.Props.Graph.projects_for_file_correct
#print axioms Verif.Props.SpComp.output_understood
#print axioms Verif.Props.SpComp.output_sound
#print axioms Verif.Props.SpComp.line_zero_refuted
#print axioms Verif.Props.SpComp.path_refuted
#print axioms Verif.Props.EnumStruct.use_partial
#print axioms Verif.Props.EnumStruct.use_leads
#print axioms Verif.Props.EnumStruct.call_leads
#print axioms Verif.Props.EnumStruct.use_refuted
#print axioms Verif.Props.Methodmap.function_to_itself_partial
#print axioms Verif.Props.Methodmap.function_to_itself_refuted
#print axioms Verif.Props.FindDef.container_partial
#print axioms Verif.Props.FindDef.local_of_container_partial
#print axioms Verif.Props.FindDef.forward_refuted
#print axioms Verif.Props.FindDef.variable_refuted
#print axioms Verif.Props.FindDef.enum_methodmap_refuted
#print axioms Verif.Props.FindDef.same_member_refuted
#print axioms Verif.Props.Picked.picked_iff
#print axioms Verif.Props.Picked.crash_iff
#print axioms Verif.Props.ItemTree.item_tree_partial
#print axioms Verif.Props.ItemTree.item_tree_refuted
#print axioms Verif.Props.ItemTree.unnamed_enums_distinct
#print axioms Verif.Props.MacroDef.goto_macro_partial
#print axioms Verif.Props.MacroDef.goto_macro_found_partial
#print axioms Verif.Props.Hover.goto_use_partial
#print axioms Verif.Props.MacroDef.goto_macro_ghost_refuted
#print axioms Verif.Props.MacroDef.goto_macro_lines_refuted
#print axioms Verif.Props.MacroDef.goto_macro_unnamed_refuted
#print axioms Verif.Props.MacroDef.goto_macro_error_refuted
#print axioms Verif.Props.Loader.folder_load_exact
#print axioms Verif.Props.Loader.folder_load_once
#print axioms Verif.Props.Loader.folder_watch_agrees
#print axioms Verif.Props.Loader.files_load
#print axioms Verif.Props.Loader.load_iff_contains_partial
#print axioms Verif.Props.Loader.load_once
#print axioms Verif.Props.Loader.load_excluded_refuted
#print axioms Verif.Props.Loader.load_excluded_file_refuted
#print axioms Verif.Props.Loading.loading_no_panic
#print axioms Verif.Props.Loading.quiescent_means_loaded
#print axioms Verif.Props.Loading.loaded_means_quiescent
#print axioms Verif.Props.Loading.progress_legal
#print axioms Verif.Props.Loading.never_stuck
#print axioms Verif.Props.Loading.diagnostics_fresh
#print axioms Verif.Props.Loading.follows_disk
#print axioms Verif.Props.Loader.watch_exact
#print axioms Verif.Props.Loader.watch_follows_partial
#print axioms Verif.Props.Loader.watch_deleted_refuted
#print axioms Verif.Props.Infer.members_exact_partial
#print axioms Verif.Props.Infer.type_exact_partial
#print axioms Verif.Props.Infer.one_verdict
#print axioms Verif.Props.Infer.attribute_exact_partial
#print axioms Verif.Props.Infer.method_exact_partial
#print axioms Verif.Props.Infer.shadowed_type_refuted
#print axioms Verif.Props.Infer.vector_refuted
#print axioms Verif.Props.Infer.unheard_refuted
#print axioms Verif.Props.Body.member_leads_partial
#print axioms Verif.Props.Body.method_leads_partial
#print axioms Verif.Props.Body.lowered_distinct
#print axioms Verif.Props.Infer.named_exact_partial
#print axioms Verif.Props.Infer.named_resolution_partial
#print axioms Verif.Props.Infer.methodmap_named_refuted
#print axioms Verif.Props.Infer.constructor_named_refuted
#print axioms Verif.Props.Body.lowered_distinct
#print axioms Verif.Props.Body.findings_shown
#print axioms Verif.Props.Body.analysed_partial
#print axioms Verif.Props.Body.member_leads_partial
#print axioms Verif.Props.Body.method_leads_partial
#print axioms Verif.Props.Body.loop_refuted
#print axioms Verif.Props.Body.literal_refuted
#print axioms Verif.Props.Body.ignored_refuted
#print axioms Verif.Props.Literals.int_read
#print axioms Verif.Props.Literals.float_read
#print axioms Verif.Props.Literals.bool_read
#print axioms Verif.Props.Body.lowering_partial
#print axioms Verif.Props.Body.called_refuted
#print axioms Verif.Props.Process.output_complete
#print axioms Verif.Props.Process.output_prefix
#print axioms Verif.Props.Process.ends_iff
#print axioms Verif.Props.Process.waits_for_open
#print axioms Verif.Props.Process.ready_is_read
#print axioms Verif.Props.Process.sent_complete
#print axioms Verif.Props.Config.settings_read
#print axioms Verif.Props.Config.means_unique
#print axioms Verif.Props.Config.settings_last_partial
#print axioms Verif.Props.Config.settings_start_partial
#print axioms Verif.Props.Config.settings_kept
#print axioms Verif.Props.Config.removal_refuted
#print axioms Verif.Props.Config.silent_refuted
#print axioms Verif.Props.Config.absolute_used
#print axioms Verif.Props.Config.relative_refuted
#print axioms Verif.Props.Workers.workers_current_partial
#print axioms Verif.Props.Workers.save_partial
#print axioms Verif.Props.Workers.save_start_partial
#print axioms Verif.Props.Workers.save_off
#print axioms Verif.Props.Workers.startup_refuted
#print axioms Verif.Props.Workers.new_project_refuted
#print axioms Verif.Props.Workers.unset_refuted
#print axioms Verif.Props.FileDiag.syntax_shown
#print axioms Verif.Props.FileDiag.preprocessor_shown
#print axioms Verif.Props.FileDiag.bodies_partial
#print axioms Verif.Props.FileDiag.methods_refuted
#print axioms Verif.Props.FileDiag.place_partial
#print axioms Verif.Props.FileDiag.place_refuted
#print axioms Verif.Props.Hover.hover_line
#print axioms Verif.Props.Hover.hover_partial
#print axioms Verif.Props.Hover.hover_refuted
#print axioms Verif.Props.Hover.condition_refuted
#print axioms Verif.Props.Hover.argument_refuted
#print axioms Verif.Props.Highlight.highlight_mem
#print axioms Verif.Props.Highlight.highlight_partial
#print axioms Verif.Props.Highlight.full_partial
#print axioms Verif.Props.Highlight.full_refuted
#print axioms Verif.Props.Highlight.order_refuted
#print axioms Verif.Props.Highlight.condition_refuted
#print axioms Verif.Props.Highlight.argument_refuted
#print axioms Verif.Props.Docs.docs_above
#print axioms Verif.Props.Docs.docs_own_partial
#print axioms Verif.Props.Docs.block_text_partial
#print axioms Verif.Props.Docs.line_text_partial
#print axioms Verif.Props.Docs.trailing_refuted
#print axioms Verif.Props.Docs.variable_refuted
#print axioms Verif.Props.Docs.text_refuted
#print axioms Verif.Props.Goto.goto_partial
#print axioms Verif.Props.Goto.goto_macro_partial
#print axioms Verif.Props.Goto.goto_argument_partial
#print axioms Verif.Props.Goto.goto_argument_refuted
#print axioms Verif.Props.Goto.goto_comment_refuted
#print axioms Verif.Props.Goto.definition_place
#print axioms Verif.Props.Goto.goto_full_refuted
#print axioms Verif.Props.Columns.token_partial
#print axioms Verif.Props.Columns.token_exact
#print axioms Verif.Props.Columns.token_refuted
#print axioms Verif.Props.Pool.in_order_partial
#print axioms Verif.Props.Pool.begun_in_order
#print axioms Verif.Props.Pool.intent_and_bound
#print axioms Verif.Props.Pool.begun_accounted
#print axioms Verif.Props.Pool.own_bounded
#print axioms Verif.Props.Pool.all_done_partial
#print axioms Verif.Props.Pool.drop_waits_partial
#print axioms Verif.Props.Pool.workers_used_up_refuted
#print axioms Verif.Props.Snapshot.one_moment
#print axioms Verif.Props.Snapshot.moment_of_request
#print axioms Verif.Props.Snapshot.moment_of_request_refuted
#print axioms Verif.Props.Snapshot.answered_at_rest
#print axioms Verif.Props.Snapshot.comes_to_rest
#print axioms Verif.Props.Snapshot.current_at_rest_partial
#print axioms Verif.Props.Snapshot.subscriptions_found
#print axioms Verif.Props.Snapshot.stale_refuted
#print axioms Verif.Props.Markdown.all_shown
#print axioms Verif.Props.Markdown.nothing_added
#print axioms Verif.Props.Markdown.rendered_partial
#print axioms Verif.Props.Markdown.comments_partial
#print axioms Verif.Props.Inline.inline_partial
#print axioms Verif.Props.Inline.deprecated_partial
#print axioms Verif.Props.Markdown.layout_partial
#print axioms Verif.Props.Markdown.layout_refuted
#print axioms Verif.Props.Markdown.no_description_refuted
#print axioms Verif.Props.Markdown.glued_refuted
#print axioms Verif.Props.Markdown.escape_refuted
#print axioms Verif.Props.Compile.progress_partial
#print axioms Verif.Props.Compile.busy_runs
#print axioms Verif.Props.Compile.status_partial
#print axioms Verif.Props.Compile.cancel_reaches
#print axioms Verif.Props.Compile.cancel_other
#print axioms Verif.Props.Compile.others_apart
#print axioms Verif.Props.Compile.cancel_stops
#print axioms Verif.Props.Compile.titles_differ
#print axioms Verif.Props.Compile.progress_refuted
#print axioms Verif.Props.Compile.status_refuted
#print axioms Verif.Props.NameDef.declaration_partial
#print axioms Verif.Props.NameDef.accessor_partial
#print axioms Verif.Props.NameDef.local_partial
#print axioms Verif.Props.NameDef.signature_partial
#print axioms Verif.Props.NameDef.macro_inside_crashes
#print axioms Verif.Props.NameDef.other_names_crash
#print axioms Verif.Props.NameDef.name_refuted
#print axioms Verif.Props.Outside.sound
#print axioms Verif.Props.Outside.no_crash
#print axioms Verif.Props.Outside.crashes_alike
#print axioms Verif.Props.Outside.nameless_typedef
#print axioms Verif.Props.Outside.sole_partial
#print axioms Verif.Props.Outside.methodmap_found
#print axioms Verif.Props.Outside.own_function_found
#print axioms Verif.Props.Outside.in_typedef
#print axioms Verif.Props.Outside.in_native
#print axioms Verif.Props.Outside.elsewhere_refuted
#print axioms Verif.Props.Outside.type_refuted
#print axioms Verif.Props.InferScope.agree_partial
#print axioms Verif.Props.InferScope.inferred_exact
#print axioms Verif.Props.InferScope.rule_partial
#print axioms Verif.Props.InferScope.adjacent_refuted
#print axioms Verif.Props.InferScope.this_refuted
#print axioms Verif.Props.InferScope.bare_for_refuted
#print axioms Verif.Props.Graphviz.picture_partial
#print axioms Verif.Props.Graphviz.picture_iff
#print axioms Verif.Props.Graphviz.colours
#print axioms Verif.Props.Graphviz.arrow_refuted
#print axioms Verif.Props.Dot.text_partial
#print axioms Verif.Props.Dot.text_refuted
#print axioms Verif.Props.HoverDef.agree
#print axioms Verif.Props.HoverDef.hover_partial
#print axioms Verif.Props.HoverDef.macro_text
#print axioms Verif.Props.HoverDef.text_refuted
#print axioms Verif.Props.Reports.reported_partial
#print axioms Verif.Props.Reports.shown_partial
#print axioms Verif.Props.Reports.place_refuted
#print axioms Verif.Props.Reports.line_refuted
#print axioms Verif.Props.Reports.operator_refuted
#print axioms Verif.Props.Settings.settings_arrive_partial
#print axioms Verif.Props.Settings.answers_harmless
#print axioms Verif.Props.Settings.settles
#print axioms Verif.Props.Settings.push_refuted
#print axioms Verif.Props.Settings.first_refuted
#print axioms Verif.Props.Indexing.progress_wellformed
#print axioms Verif.Props.Indexing.progress_ends
#print axioms Verif.Props.Indexing.report_text
#print axioms Verif.Props.Indexing.percentage_exact
#print axioms Verif.Props.Lifecycle.handled_once
#print axioms Verif.Props.Lifecycle.ends_at_exit
#print axioms Verif.Props.Lifecycle.requests_dispatched
#print axioms Verif.Props.Lifecycle.survives_partial
#print axioms Verif.Props.Lifecycle.survives_refuted
#print axioms Verif.Props.Lifecycle.status_refuted
#print axioms Verif.Props.Pretty.shown_partial
#print axioms Verif.Props.Pretty.shown_typed_partial
#print axioms Verif.Props.Pretty.shown_refuted
#print axioms Verif.Props.MainPath.main_path_partial
#print axioms Verif.Props.MainPath.main_path_refuted
#print axioms Verif.Props.Params.params_known
#print axioms Verif.Props.Params.params_lead
#print axioms Verif.Props.BodyOf.own
#print axioms Verif.Props.BodyOf.own_params
#print axioms Verif.Props.Params.locals_known_partial
#print axioms Verif.Props.Body.loop_refuted
#print axioms Verif.Props.Written.type_shown_partial
#print axioms Verif.Props.Written.type_iff
#print axioms Verif.Props.Written.type_refuted
#print axioms Verif.Props.Written.visibility_written
#print axioms Verif.Props.Written.kind_written
