{
 "claims": [
  {
   "property": "C01",
   "status": "proved",
   "theorems": [
    "Verif.File.file_splits_into_items",
    "Verif.File.blocks_determined",
    "Verif.File.lines_determined",
    "Verif.File.file_is_read"
   ],
   "note": "Header layout, blocks and items; blocks and lines are determined by the text; a file without brackets whose definition headers parse is always read."
  },
  {
   "property": "C02",
   "status": "proved",
   "theorems": [
    "Verif.File.batch_contents",
    "Verif.File.batch_is_the_blocks_by_kind"
   ],
   "note": ""
  },
  {
   "property": "C03",
   "status": "proved",
   "theorems": [
    "Verif.File.line_numbers",
    "Verif.File.too_many_lines_panics"
   ],
   "note": ""
  },
  {
   "property": "C04",
   "status": "partial",
   "theorems": [
    "Verif.Defs.typed_builtin_kept",
    "Verif.Defs.generic_builtin_kept_partial",
    "Verif.Defs.record_replaces_builtin",
    "Verif.Defs.clear_does_not_restore",
    "Verif.Defs.generic_builtin_shadowed"
   ],
   "note": "Full for built-ins with an input type; generic built-ins when no record type is named like one. The unrestricted claim is false: record_replaces_builtin."
  },
  {
   "property": "C05",
   "status": "proved",
   "theorems": [
    "Verif.Defs.lookup_order",
    "Verif.Defs.typed_definition_is_local",
    "Verif.Defs.generic_definition_is_local",
    "Verif.Defs.type_definition_is_local"
   ],
   "note": "Lookup order, and what each kind of definition changes, in every reachable store."
  },
  {
   "property": "C06",
   "status": "partial",
   "theorems": [
    "Verif.Defs.clear_keeps_exactly",
    "Verif.Defs.clear_restores_partial",
    "Verif.Defs.clear_idempotent"
   ],
   "note": "Exactly the kept entries, and idempotence, in every reachable store. Clearing restores the initial store when no record type was named like a generic built-in; false otherwise (clear_does_not_restore)."
  },
  {
   "property": "C07",
   "status": "partial",
   "theorems": [
    "Verif.Defs.type_redefinition_rejected",
    "Verif.Defs.failed_request_changes_nothing",
    "Verif.Defs.type_kept_until_clear",
    "Verif.Defs.base_types_kept",
    "Verif.Defs.definition_needs_known_types",
    "Verif.Defs.types_closed_partial",
    "Verif.Defs.clear_files_can_dangle"
   ],
   "note": "Fields known at definition and types kept until a clear, in every reachable store. Closedness at all times needs that files are not cleared alone; false otherwise (clear_files_can_dangle)."
  },
  {
   "property": "C08",
   "status": "partial",
   "theorems": [
    "Verif.Tuple.tuples_distinct_partial",
    "Verif.Tuple.tuple_not_user_type",
    "Verif.Tuple.tuple_name_round_trip_partial",
    "Verif.Tuple.read_name_denotes",
    "Verif.Tuple.dashed_names_collide",
    "Verif.Tuple.user_type_is_a_tuple",
    "Verif.Tuple.underscore_name_not_read"
   ],
   "note": "For types whose names have no '-' or '_' and are not 'U'; false otherwise (dashed_names_collide, user_type_is_a_tuple, underscore_name_not_read)."
  },
  {
   "property": "C09",
   "status": "proved",
   "theorems": [
    "Verif.Tuple.construct_needs_exact_args",
    "Verif.Tuple.construct_then_get",
    "Verif.Tuple.every_field_readable",
    "Verif.Tuple.tuple_field",
    "Verif.Tuple.tuple_then_get"
   ],
   "note": "Records and tuples, owned and shared, every arity."
  },
  {
   "property": "C10",
   "status": "proved",
   "theorems": [
    "Verif.Part.partition_forest",
    "Verif.Part.boundary_names",
    "Verif.Part.extend_keeps",
    "Verif.Part.extend_items",
    "Verif.Part.extend_no_panic",
    "Verif.Part.extend_order_irrelevant"
   ],
   "note": "Reachable graphs from any sequence of extend_root calls, any export visiting order. extend_items/extend_keeps give contents."
  },
  {
   "property": "C11",
   "status": "proved",
   "theorems": [
    "Verif.Part.set_find_scan"
   ],
   "note": ""
  },
  {
   "property": "C12",
   "status": "proved",
   "theorems": [
    "Verif.Part.imports_exported",
    "Verif.Part.imports_exact",
    "Verif.Part.exports_exact"
   ],
   "note": "Exports restrict imports only; qualified paths are not restricted (see DESIGN findings). Imports of a file without items are never resolved, so the error half is for files that define something."
  },
  {
   "property": "C13",
   "status": "proved",
   "theorems": [
    "Verif.Part.lookup_denotes",
    "Verif.Part.path_components"
   ],
   "note": ""
  },
  {
   "property": "C14",
   "status": "partial",
   "theorems": [
    "Verif.Part.choose_ideal_partial",
    "Verif.Part.choose_sound",
    "Verif.Part.choose_perm",
    "Verif.Part.choose_exact_lost",
    "Verif.Part.type_lookup"
   ],
   "note": "One exact candidate beside two generic ones is reported ambiguous by the code: witness choose_exact_lost."
  },
  {
   "property": "C15",
   "status": "partial",
   "theorems": [
    "Verif.Tab.filter_owner",
    "Verif.Tab.filter_col_owner",
    "Verif.Tab.take_owner",
    "Verif.Tab.skip_owner_partial",
    "Verif.Tab.append_owner",
    "Verif.Tab.sort_by_owner",
    "Verif.Tab.skip_owner_false"
   ],
   "note": "Proved for filter, filter col, take, append and sort-by for every table; for skip when the count is below usize::MAX. rev, dedup, ren, pick, map, sort and filter --cols copy on write and have a single path. False for skip usize::MAX: witness."
  },
  {
   "property": "C16",
   "status": "proved",
   "theorems": [
    "Verif.Tab.shape",
    "Verif.Tab.shape_chain",
    "Verif.Tab.shape_new",
    "Verif.Tab.header_kept"
   ],
   "note": "All nineteen table commands, and chains of them, map rectangular tables to rectangular tables; the row-selecting ones keep the header and only yield rows of the table."
  },
  {
   "property": "C17",
   "status": "proved",
   "theorems": [
    "Verif.Tab.filter_exact",
    "Verif.Tab.filter_col_exact",
    "Verif.Tab.filter_col_missing",
    "Verif.Tab.filter_cols_exact",
    "Verif.Tab.filter_cols_fails"
   ],
   "note": ""
  },
  {
   "property": "C18",
   "status": "partial",
   "theorems": [
    "Verif.Tab.take_eq",
    "Verif.Tab.skip_eq",
    "Verif.Tab.take_skip_split",
    "Verif.Tab.take_skip_str",
    "Verif.Tab.skip_max_false"
   ],
   "note": "Missing: count usize::MAX, where skip on a shared table overflows (witness skip_max_false)."
  },
  {
   "property": "C19",
   "status": "partial",
   "theorems": [
    "Verif.Tab.sort_sorts",
    "Verif.Tab.sort_fails",
    "Verif.Tab.sorted_unique",
    "Verif.Tab.sort_by_sorts",
    "Verif.Tab.sort_by_succeeds",
    "Verif.Tab.sort_by_empty_panics",
    "Verif.Tab.rev_involution",
    "Verif.Tab.rev_rows",
    "Verif.Tab.rev_cols",
    "Verif.Tab.rev_str"
   ],
   "note": "sort and rev are proved in full. sort-by is proved on every table with a header row; on an empty table it panics (witness sort_by_empty_panics). Keys must compare by a total preorder."
  },
  {
   "property": "C20",
   "status": "proved",
   "theorems": [
    "Verif.Tab.cells_comparable",
    "Verif.Tab.cells_total_preorder",
    "Verif.Tab.cells_by_kind",
    "Verif.Tab.cells_within_kind"
   ],
   "note": "The comparison of numbers is a parameter assumed to be a total preorder."
  },
  {
   "property": "C21",
   "status": "partial",
   "theorems": [
    "Verif.Tab.grp_groups_partial",
    "Verif.Tab.grp_one_group",
    "Verif.Tab.grp_single_column",
    "Verif.Tab.grp_by_groups",
    "Verif.Tab.grp_merges",
    "Verif.Tab.grp_merges_kinds",
    "Verif.Tab.grp_by_swallows_errors"
   ],
   "note": "Groups are exactly those of the printed keys, in key order; distinct rows may print the same key (grp_merges, grp_merges_kinds) and grp-by treats failing comparisons as equal."
  },
  {
   "property": "C22",
   "status": "partial",
   "theorems": [
    "Verif.Tab.dedup_str",
    "Verif.Tab.dedup_rows_partial",
    "Verif.Tab.dedup_all_partial",
    "Verif.Tab.deduped_unique",
    "Verif.Tab.dedup_drops_first"
   ],
   "note": "Proved for strings, and for tables whose first data row differs from the header on the compared columns; otherwise that row is lost (dedup_drops_first)."
  },
  {
   "property": "C23",
   "status": "proved",
   "theorems": [
    "Verif.Tab.append_exact",
    "Verif.Tab.append_names",
    "Verif.Tab.append_row_exact",
    "Verif.Tab.append_row_fails",
    "Verif.Tab.map_exact",
    "Verif.Tab.map_missing",
    "Verif.Tab.pick_exact",
    "Verif.Tab.pick_add",
    "Verif.Tab.pick_missing",
    "Verif.Tab.ren_exact",
    "Verif.Tab.ren_swap",
    "Verif.Tab.ren_bounds",
    "Verif.Tab.ren_with_exact"
   ],
   "note": "append, append-row, map, pick, ren and ren-with change exactly the named columns or headers, under every schedule; ren resolves all references first, so names can be swapped."
  },
  {
   "property": "C24",
   "status": "partial",
   "theorems": [
    "Verif.Tab.add_rows_union_partial",
    "Verif.Tab.add_rows_union_empty",
    "Verif.Tab.add_rows_intersect",
    "Verif.Tab.add_cols_union",
    "Verif.Tab.add_cols_intersect",
    "Verif.Tab.add_rows_union_panics"
   ],
   "note": "Exact result for every pair of tables and both flags, except that adding a wider header-only table by row panics (add_rows_union_panics)."
  },
  {
   "property": "C25",
   "status": "proved",
   "theorems": [
    "Verif.Tab.rows_any_schedule",
    "Verif.Tab.rows_schedules_agree"
   ],
   "note": "Which error is reported may depend on the schedule."
  },
  {
   "property": "C26",
   "status": "proved",
   "theorems": [
    "Verif.Ops.ne_not_eq",
    "Verif.Ops.op_exact",
    "Verif.Ops.trichotomy",
    "Verif.Ops.op_trans",
    "Verif.Ops.lt_leaves",
    "Verif.Ops.tuple_lex",
    "Verif.Ops.firstDiff_spec",
    "Verif.Ops.cmp_total",
    "Verif.Ops.cmp_typed",
    "Verif.Ops.mixed_rejected",
    "Verif.Ops.cmp_swap",
    "Verif.Ops.cmp_trans",
    "Verif.Ops.eq_cmp",
    "Verif.Ops.eq_same"
   ],
   "note": "Numbers are a parameter type whose comparison is transitive and agrees with equality (no NaN). Tuple comparison runs the generated code in the model of if and and."
  },
  {
   "property": "C27",
   "status": "proved",
   "theorems": [
    "Verif.Ops.arith_fold",
    "Verif.Ops.arith_fail",
    "Verif.Ops.add_str_exact",
    "Verif.Ops.max_exact",
    "Verif.Ops.min_exact",
    "Verif.Ops.no_args",
    "Verif.Ops.and_true",
    "Verif.Ops.and_false",
    "Verif.Ops.and_false_first",
    "Verif.Ops.and_fail",
    "Verif.Ops.or_false",
    "Verif.Ops.or_true",
    "Verif.Ops.or_true_first",
    "Verif.Ops.or_fail",
    "Verif.Ops.and_or_truth"
   ],
   "note": "Results and the exact list of evaluated arguments, for every argument count and failure position."
  },
  {
   "property": "C28",
   "status": "proved",
   "theorems": [
    "Verif.Ops.if_even",
    "Verif.Ops.if_odd",
    "Verif.Ops.if_true",
    "Verif.Ops.if_else",
    "Verif.Ops.if_fail",
    "Verif.Ops.if_cases"
   ],
   "note": "The three cases cover every accepted if."
  },
  {
   "property": "C29",
   "status": "proved",
   "theorems": [
    "Verif.Step.chain",
    "Verif.Step.chain_fails"
   ],
   "note": "Chains split anywhere; after a failing block the outcome and the world do not depend on what follows."
  },
  {
   "property": "C30",
   "status": "partial",
   "theorems": [
    "Verif.Step.lexical_eval_partial",
    "Verif.Step.call_frame_partial",
    "Verif.Step.call_keeps",
    "Verif.Step.call_sees_params",
    "Verif.Step.leak"
   ],
   "note": "Compiled evaluation equals the lexical semantics for every program and every order of discovery, except programs where let names a lazy parameter; for those the property is false (leak)."
  },
  {
   "property": "C31",
   "status": "proved",
   "theorems": [
    "Verif.Loc.lexical",
    "Verif.Loc.sees_iff",
    "Verif.Loc.resolved_sees",
    "Verif.Loc.order_irrelevant"
   ],
   "note": "the graph of locals is modelled; resolution is compared with a separate relation"
  },
  {
   "property": "C32",
   "status": "proved",
   "theorems": [
    "Verif.Loc.slots",
    "Verif.Loc.slots_distinct",
    "Verif.Loc.kinds",
    "Verif.Loc.reused"
   ],
   "note": "slots of all variables are 0 .. count in order of creation; pointers own none"
  },
  {
   "property": "C33",
   "status": "partial",
   "theorems": [
    "Verif.Ty.settled_stays",
    "Verif.Ty.flows_agree_partial",
    "Verif.Ty.resolved_complete",
    "Verif.Ty.disagreement_fails",
    "Verif.Ty.resolved_forced",
    "Verif.Ty.any_disagrees"
   ],
   "note": "Settled types stay for every history, a pending disagreement always fails, nothing is left to flow after success; completed flows agree except where Any flowed from input to input, where agreement is false (any_disagrees)."
  },
  {
   "property": "C34",
   "status": "proved",
   "theorems": [
    "Verif.Ty.resolve_ends",
    "Verif.Ty.resolve_mono",
    "Verif.Ty.round_shrinks"
   ],
   "note": "For every graph, and more rounds change nothing."
  },
  {
   "property": "C35",
   "status": "partial",
   "theorems": [
    "Verif.Ty.typable_resolves",
    "Verif.Ty.crash_partial",
    "Verif.Ty.change_crash_iff",
    "Verif.Ty.obliged_known_crashes",
    "Verif.Ty.known_obliged_conflicts"
   ],
   "note": "A graph with a consistent typing resolves; the unimplemented case is reached only where an obliged type meets a different known one. The full property is false (obliged_known_crashes)."
  },
  {
   "property": "C36",
   "status": "partial",
   "theorems": [
    "Verif.Infer.infers_iff",
    "Verif.Infer.infers_any_order",
    "Verif.Infer.fails_iff",
    "Verif.Infer.reduce_exact",
    "Verif.Infer.depth_fails",
    "Verif.Infer.only_one_not_inferred",
    "Verif.Infer.failure_kind_depends_on_order",
    "Verif.Infer.ambiguity_names_failing",
    "Verif.Infer.nodes_exact",
    "Verif.Infer.nodes_any_order",
    "Verif.Infer.nodes_depth_depends_on_order",
    "Verif.Infer.depth_bound",
    "Verif.Infer.block_removal",
    "Verif.Infer.block_removal_order"
   ],
   "note": "A type is inferred iff exactly one candidate compiles and no trial stops at the depth limit, in any order; failures described exactly. Missing: candidates that hit the depth limit (inference then fails, proved)."
  },
  {
   "property": "C37",
   "status": "partial",
   "theorems": [
    "Verif.Blk.command_uses_all_partial",
    "Verif.Blk.args_in_order",
    "Verif.Blk.terms_exact",
    "Verif.Blk.terms_past_256_dropped",
    "Verif.Blk.flag_by_name",
    "Verif.Blk.flag_any",
    "Verif.Blk.leftover_reported",
    "Verif.Blk.missing_reported",
    "Verif.Blk.variadic_exact",
    "Verif.Blk.argument_256_panics",
    "Verif.Blk.def_binds",
    "Verif.Blk.def_count_partial",
    "Verif.Blk.unused_parameter_hides_leftovers"
   ],
   "note": "Built-in commands: on success every flag and argument was given exactly once, arguments in order, for at most 256 of each; leftovers and missing arguments are reported. User commands: bound parameters match arguments one to one. Missing: more than 256 terms (dropped, proved) and user commands that do not mention a parameter whose argument has another type (leftovers accepted, proved)."
  },
  {
   "property": "C38",
   "status": "partial",
   "theorems": [
    "Verif.Exp.expansion_ends_partial",
    "Verif.Exp.no_panic_partial",
    "Verif.Exp.never_inside_itself",
    "Verif.Exp.all_implementations",
    "Verif.Exp.untyped_circle_fails",
    "Verif.Exp.path_panics",
    "Verif.Exp.deep_rejected"
   ],
   "note": "Expansion is modelled with its round limit and panics. Proved: with fewer than 128 definitions, no untyped self-use and no path operations it ends with a graph or a told error; it never panics without path operations; typed definitions never nest in themselves; every operation gets all its implementations; untyped circles always fail. Missing because false of the code: path operations panic, and nesting deeper than 128 without recursion is rejected."
  },
  {
   "property": "C39",
   "status": "proved",
   "theorems": [
    "Verif.Batch.no_fail_fast_processes_everything",
    "Verif.Batch.outcomes_sound",
    "Verif.Batch.definitions_first",
    "Verif.Batch.fail_fast_starts_nothing_new",
    "Verif.Batch.sequential_fail_fast",
    "Verif.Batch.schedules_bounded",
    "Verif.Batch.never_stuck"
   ],
   "note": "One outcome per item in item order, for every schedule of worker steps, every failure pattern and every moment of cancellation. Expression and definition processing are parameters."
  },
  {
   "property": "C40",
   "status": "partial",
   "theorems": [
    "Verif.Batch.cancel_with_fail_fast_partial",
    "Verif.Batch.cancel_ignored_without_fail_fast"
   ],
   "note": "Holds for fail-fast batches (cancel_with_fail_fast_partial). False without fail-fast: the switch is never consulted and every item still runs (cancel_ignored_without_fail_fast)."
  },
  {
   "property": "C41",
   "status": "partial",
   "theorems": [
    "Verif.Io.cache_hit",
    "Verif.Io.cache_hit_partial",
    "Verif.Io.cache_type",
    "Verif.Io.cache_keeps",
    "Verif.Io.case_confuses_files",
    "Verif.Io.stale_after_change",
    "Verif.Io.directory_change_ignored",
    "Verif.Io.cache_expires"
   ],
   "note": "Every hit is the last contents read and stored under that key, of the requested type, with no change notification between storing and the hit (cache_hit, cache_type). That the file is the requested one and the reading is after the last notification needs distinct lower-cased names and no notification between reading and storing (cache_hit_partial); case_confuses_files, stale_after_change and directory_change_ignored show the full statement false."
  },
  {
   "property": "C42",
   "status": "partial",
   "theorems": [
    "Verif.Io.save_decides",
    "Verif.Io.save_inside_partial",
    "Verif.Io.save_no_dotdot_partial",
    "Verif.Io.save_absolute_refused",
    "Verif.Io.save_escapes",
    "Verif.Io.save_escapes_named_root",
    "Verif.Io.save_wraps",
    "Verif.Io.save_follows_links",
    "Verif.Io.save_absolute_root"
   ],
   "note": "False as stated: save_escapes. save_decides is the exact condition; paths that never rise above the root stay inside (save_inside_partial, without links)."
  },
  {
   "property": "C43",
   "status": "partial",
   "theorems": [
    "Verif.Io.scrub_iff",
    "Verif.Io.cd_accepted",
    "Verif.Io.cds_inside",
    "Verif.Io.open_inside_partial",
    "Verif.Io.open_outside_cwd",
    "Verif.Io.relative_root_doubled",
    "Verif.Io.ls_outside"
   ],
   "note": "cd: every sequence of accepted paths stays inside (cds_inside). open: the accepted path is inside (scrub_iff), the file read is when the process runs in the root (open_inside_partial); otherwise open_outside_cwd."
  },
  {
   "property": "C44",
   "status": "partial",
   "theorems": [
    "Verif.Print.long_table",
    "Verif.Print.short_table",
    "Verif.Print.wide_row",
    "Verif.Print.narrow_row",
    "Verif.Print.printed_rectangular",
    "Verif.Print.headerless_miscounts"
   ],
   "note": "Exact for tables marked as having a header, all sizes; columns always. Without the mark the count is off by one (headerless_miscounts)."
  },
  {
   "property": "C45",
   "status": "proved",
   "theorems": [
    "Verif.Print.saved_reads_back",
    "Verif.Print.saved_distinct",
    "Verif.Print.nil_is_empty_text",
    "Verif.Print.no_rows_is_one_cell"
   ],
   "note": "Round trip with a separate reader for every table with at least one row and column, any texts."
  },
  {
   "property": "C46",
   "status": "proved",
   "theorems": [
    "Verif.LsDoc.receive_settled",
    "Verif.LsDoc.edits_converge",
    "Verif.LsDoc.stale_edits_ignored",
    "Verif.LsDoc.duplicate_edit_applied_twice"
   ],
   "note": "Text edits abstract; versions distinct (LSP). Late edits are ignored. Duplicate delivery of the current version is applied twice (duplicate_edit_applied_twice)."
  },
  {
   "property": "C47",
   "status": "proved",
   "theorems": [
    "Verif.Shell.editor_is_a_cursor",
    "Verif.Shell.moving_keeps_text",
    "Verif.Shell.type_then_backspace"
   ],
   "note": "Refinement of the editor to a two-sided cursor over every operation list."
  },
  {
   "property": "C48",
   "status": "proved",
   "theorems": [
    "Verif.Shell.history_shows",
    "Verif.Shell.back_shows_kth",
    "Verif.Shell.history_only_entered"
   ],
   "note": "Refinement of the history to the list of entered lines over every operation list."
  },
  {
   "property": "C49",
   "status": "proved",
   "theorems": [
    "Verif.Shell.completions_from_latest_request",
    "Verif.Shell.late_reply_shown_on_changed_line"
   ],
   "note": "Over every run of the event loop with at most 2^128 turns. A late reply to the latest request can still be shown after the line changed without a new request; the witness is late_reply_shown_on_changed_line."
  },
  {
   "property": "C50",
   "status": "partial",
   "theorems": [
    "Verif.Tab.range_rows",
    "Verif.Tab.len_rows",
    "Verif.Tab.nth_exact_partial",
    "Verif.Tab.nth_str",
    "Verif.Tab.last_row",
    "Verif.Tab.nth_max"
   ],
   "note": "nth is exact for every index below the largest machine number; with that one it overflows (nth_max)."
  },
  {
   "property": "C51",
   "status": "proved",
   "theorems": [
    "Verif.Parse.expression_round_trip",
    "Verif.Parse.expression_good",
    "Verif.Parse.reread",
    "Verif.Parse.expression_ends",
    "Verif.Parse.definition_round_trip",
    "Verif.Parse.definition_good",
    "Verif.Parse.type_round_trip",
    "Verif.Parse.type_good",
    "Verif.Parse.parse_reread",
    "Verif.Parse.rooted_path_never",
    "Verif.Parse.block_without_pipe",
    "Verif.Parse.space_matters",
    "Verif.Parse.blank_in_brackets"
   ],
   "note": "Every expression that satisfies GoodE (names, numbers and words are ones), nested to any depth, is read back from its canonical text (expression_round_trip; the type after the closing brace exists only for nested expressions), and so are definitions of commands and types. Conversely whatever the parser accepts satisfies GoodE/GoodDef/GoodDefTy, so parse, write, parse is the identity on everything that can be entered (parse_reread). The nesting bound of the model is never reached (expression_ends)."
  },
  {
   "property": "C52",
   "status": "proved",
   "theorems": [
    "Verif.Tab.get_exact",
    "Verif.Tab.get_missing",
    "Verif.Tab.get_history"
   ],
   "note": "Reads are exact for every table, name, type or default, and whatever was read before through the shared cache."
  },
  {
   "property": "C53",
   "status": "proved",
   "theorems": [
    "Verif.Shell.choosing_replaces_the_word",
    "Verif.Shell.arrows_cycle_through_choices"
   ],
   "note": "For every line and every interleaving of arrow keys and replies after a request."
  },
  {
   "property": "C54",
   "status": "partial",
   "theorems": [
    "Verif.Shell.shell_does_not_crash_partial",
    "Verif.Shell.crash_after_closing_last_tab",
    "Verif.Shell.keys_only_affect_selected_tab",
    "Verif.Shell.open_close_tabs"
   ],
   "note": "False as stated: events after Alt+q on the last tab in the same turn crash. Proved for runs where Alt+q only ends a turn; the rest holds fully."
  },
  {
   "property": "C55",
   "status": "partial",
   "theorems": [
    "Verif.Shell.enter_evaluates_the_line_partial",
    "Verif.Shell.typed_ahead_joins_line"
   ],
   "note": "False as stated when keys follow Enter in one turn (witness). Proved when Enter is the last event of its turn."
  },
  {
   "property": "C56",
   "status": "proved",
   "theorems": [
    "Verif.Shell.outputs_keep_latest"
   ],
   "note": "Over every operation list and every limit."
  },
  {
   "property": "C57",
   "status": "proved",
   "theorems": [
    "Verif.File.directives_round_trip",
    "Verif.File.file_splits_into_items"
   ],
   "note": "Grammar soundness of directive lines is part of Layout in file_splits_into_items."
  },
  {
   "property": "C58",
   "status": "partial",
   "theorems": [
    "Verif.File.documentation_attached_partial",
    "Verif.File.header_comment_replaces_item_comment"
   ],
   "note": "False for the first item after a header comment that is separated by a line of spaces or by CRLF line endings; proved for all other items."
  },
  {
   "property": "C59",
   "status": "proved",
   "theorems": [
    "Verif.Tab.fold_exact",
    "Verif.Tab.fold_pure",
    "Verif.Tab.fold_while_exact",
    "Verif.Tab.fold_while_true"
   ],
   "note": "fold and fold-while equal the reference folds over rows 1, 2, … without cache."
  },
  {
   "property": "C60",
   "status": "partial",
   "theorems": [
    "Verif.Loc.answer_final_partial",
    "Verif.Loc.late_definition_changes_answer"
   ],
   "note": "holds when definitions are made before the defining block is sealed; fold-while does not do that and the witness shows an answer changing"
  },
  {
   "property": "C61",
   "status": "partial",
   "theorems": [
    "Verif.Exp.program_shown",
    "Verif.Exp.all_implementations",
    "Verif.Exp.terms_written",
    "Verif.Exp.terms_received",
    "Verif.Exp.terms_received_partial",
    "Verif.Exp.terms_lost",
    "Verif.Exp.call_loses_arguments"
   ],
   "note": "The graph of every compiled expression is exactly the expression, each definition node has exactly its body, and implementations receive the first 256 terms of the call, in order (terms_received). Missing because false of the code: beyond 256 arguments the rest are lost (terms_lost)."
  },
  {
   "property": "C62",
   "status": "proved",
   "theorems": [
    "Verif.Exp.impl_chosen",
    "Verif.Exp.impl_missing"
   ],
   "note": "For every compiled expression and every operation in it."
  },
  {
   "property": "C63",
   "status": "partial",
   "theorems": [
    "Verif.Trace.line_marked",
    "Verif.Trace.lines_marked",
    "Verif.Trace.end_marked",
    "Verif.Trace.printed_partial",
    "Verif.Trace.print_some",
    "Verif.Trace.parse_error_prints",
    "Verif.Trace.far_column",
    "Verif.Trace.line_feed_hidden"
   ],
   "note": "Shown lines, marks and written text for a span in one line, in several lines and at the end of the text; printing never fails. The column claim needs the span to start at or before column 10000 (far_column shows it is false beyond), and an error on the line feed of a Windows line ending shows nothing (line_feed_hidden)."
  },
  {
   "property": "C64",
   "status": "proved",
   "theorems": [
    "Verif.LsText.pos_exact",
    "Verif.LsText.pos_past_line",
    "Verif.LsText.pos_past_text",
    "Verif.LsText.edits_applied",
    "Verif.LsText.copy_is_text",
    "Verif.LsText.has_position",
    "Verif.LsText.split_pair"
   ],
   "note": "Positions are between characters and not inside a Windows line ending, as the protocol requires; a position inside a surrogate pair panics (split_pair), which editors do not send."
  },
  {
   "property": "C65",
   "status": "partial",
   "theorems": [
    "Verif.LsText.cursor_in_definition_partial",
    "Verif.LsText.completion_text_partial",
    "Verif.LsText.last_line_nothing",
    "Verif.LsText.stray_return"
   ],
   "note": "Holds for a cursor on a line of the document when no line ends with an extra carriage return. False on the empty line after the last line feed (last_line_nothing) and with extra carriage returns (stray_return)."
  },
  {
   "property": "C66",
   "status": "partial",
   "theorems": [
    "Verif.LsText.path_in_quotes",
    "Verif.LsText.path_bare",
    "Verif.LsText.path_word",
    "Verif.LsText.closed_or_open",
    "Verif.LsText.slash_panics"
   ],
   "note": "The word that is looked up is proved for every input. The last sentence is false: completions after a command name and a slash panic (slash_panics)."
  },
  {
   "property": "C67",
   "status": "proved",
   "theorems": [
    "Verif.Comp.compiling_ends"
   ],
   "note": "For every well formed syntax graph and every behaviour of the built-in commands."
  },
  {
   "property": "C68",
   "status": "partial",
   "theorems": [
    "Verif.Comp.panics_only_when_compiled_partial",
    "Verif.Comp.unused_argument_panics"
   ],
   "note": "False of the code: unused_argument_panics gives a program that panics. Proved: the panic can only happen while types are tried for an expression after the whole program is compiled."
  },
  {
   "property": "C69",
   "status": "partial",
   "theorems": [
    "Verif.Comp.five_deep_partial",
    "Verif.Comp.six_filters_refused"
   ],
   "note": "False of the code: six_filters_refused gives a program refused for its length. Proved: the depth never exceeds five and the refusal only happens there."
  },
  {
   "property": "C70",
   "status": "proved",
   "theorems": [
    "Verif.Comp.compiled_fits"
   ],
   "note": "For every behaviour of the built-in commands; that a command computes a value of the type it announces is not part of it."
  },
  {
   "property": "C71",
   "status": "partial",
   "theorems": [
    "Verif.Comp.arguments_fit_partial",
    "Verif.Comp.late_argument_misfits"
   ],
   "note": "Proved for argument expressions written in place. False for one a parameter stands for: late_argument_misfits."
  },
  {
   "property": "C72",
   "status": "partial",
   "theorems": [
    "Verif.Comp.calls_as_declared_partial",
    "Verif.Comp.surplus_arguments_compile"
   ],
   "note": "Proved for definitions of at most 256 parameters whose expression evaluates a variable in a built-in command. False for a definition that does not use its parameters: surplus_arguments_compile."
  },
  {
   "property": "C73",
   "status": "proved",
   "theorems": [
    "Verif.Tags.tag_is_place",
    "Verif.Tags.tags_nested"
   ],
   "note": "the parser with positions is simulated by the parser of C05; each position reads back the text"
  },
  {
   "property": "C74",
   "status": "partial",
   "theorems": [
    "Verif.Tags.highlight_whole_partial",
    "Verif.Tags.highlight_unparsed",
    "Verif.Tags.highlight_panics",
    "Verif.Tags.highlight_path"
   ],
   "note": "proved for lines without paths and with only one-byte characters before flags, and for lines that do not parse; false otherwise: two witnesses where the shell panics"
  },
  {
   "property": "C75",
   "status": "proved",
   "theorems": [
    "Verif.Tags.node_found",
    "Verif.Tags.found_node",
    "Verif.Tags.parts_are_words"
   ],
   "note": "lines without paths, as the property says; on a path the code panics (DESIGN.md, findings)"
  },
  {
   "property": "C76",
   "status": "partial",
   "theorems": [
    "Verif.Comp.evaluation_is_safe_partial",
    "Verif.Comp.library_programs_are_safe_partial",
    "Verif.Comp.rebinding_is_stuck",
    "Verif.Comp.unset_variable_is_stuck"
   ],
   "note": "Definitions whose parameters are expressions, have equal names or number more than 256 are excluded, and so are commands that ask for one variable with two types; C76 is false there, as rebinding_is_stuck and unset_variable_is_stuck show. evaluation_is_safe_partial assumes of the built-in commands that their closures do as announced; library_programs_are_safe_partial assumes nothing, for programs of the nine modelled commands."
  },
  {
   "property": "C77",
   "status": "partial",
   "theorems": [
    "Verif.Prog.text_compiles",
    "Verif.Prog.noted_text_compiles",
    "Verif.Prog.text_evaluates_partial",
    "Verif.Prog.starting_goes_on",
    "Verif.Prog.programs_are_well_formed",
    "Verif.Prog.programs_compile",
    "Verif.Prog.programs_evaluate_partial",
    "Verif.Prog.filled_of_text",
    "Verif.Prog.simple_of_text",
    "Verif.Prog.annotated_text_evaluates_partial",
    "Verif.Prog.compiler_reads_the_program"
   ],
   "note": "text_compiles and noted_text_compiles (with the types that are annotated in the text) are the whole of the claim up to compiling, for every text and any built-in commands. text_evaluates_partial is for programs of the nine modelled commands and excludes what C76 excludes where it is false (parameters that are expressions, more than 256 parameters, one let that sets a name twice)."
  },
  {
   "property": "C78",
   "status": "proved",
   "theorems": [
    "Verif.Prog.noted_text_compiles",
    "Verif.Prog.annotations_are_honoured",
    "Verif.Prog.annotated_ends",
    "Verif.Prog.starting_goes_on"
   ],
   "note": "noted_text_compiles is the claim for text and definitions read from text: TextE says of the parsed text, without the model's reading of it, that the graph shows it and that what is compiled has the annotated types. annotations_are_honoured is the same for programs in which every expression has a block, annotated_ends is the claim about the ends of a pipeline."
  },
  {
   "property": "C79",
   "status": "proved",
   "theorems": [
    "Verif.Batch.progress_is_told",
    "Verif.Batch.progress_is_a_run",
    "Verif.Batch.progress_never_blocks"
   ],
   "note": "progress_is_told is the whole claim about the reports; progress_is_a_run and progress_never_blocks say that reporting does not change the processing."
  },
  {
   "property": "C80",
   "status": "proved",
   "theorems": [
    "Verif.Cli.exit_status_zero",
    "Verif.Cli.exit_status_panic",
    "Verif.Cli.exit_status_results",
    "Verif.Cli.exit_status_determined"
   ],
   "note": "The shell's own status is not modelled. glob, loading, parsing of files and the order of paths are parameters."
  },
  {
   "property": "C81",
   "status": "partial",
   "theorems": [
    "Verif.Enter.lines_run_safely_partial",
    "Verif.Lang.sessions_run_safely_partial",
    "Verif.Lang.programs_run_safely_partial",
    "Verif.Lang.commands_are_safe_partial",
    "Verif.Lang.listed_accepted",
    "Verif.Lang.listed_only"
   ],
   "note": "lines_run_safely_partial is the claim for sessions of lines, files and documents, where every definition is read with the commands known at that time; sessions_run_safely_partial for sessions of requests; programs_run_safely_partial for programs as they are, commands_are_safe_partial for any well-formed graph. listed_accepted and listed_only: a command takes the type of input it is listed for and, unless it never looks at it, no other. Excluded, as in C76 and C77: calls of definitions with parameters that are expressions or with more than 256 parameters, one let that sets a name twice, and defined types whose names are not clear in the sense of C08. The first three are where C76 is false."
  },
  {
   "property": "C82",
   "status": "partial",
   "theorems": [
    "Verif.Help.help_lines",
    "Verif.Help.stored_help",
    "Verif.Help.stored_sections",
    "Verif.Help.definition_help",
    "Verif.Help.record_help",
    "Verif.Help.variants_help",
    "Verif.Help.type_texts_differ_partial",
    "Verif.Help.help_in_shell_partial",
    "Verif.Help.help_instead",
    "Verif.Help.runs_whole",
    "Verif.Help.help_of_first",
    "Verif.Help.help_unknown",
    "Verif.Help.help_panics",
    "Verif.Help.variant_fields_run_together",
    "Verif.Help.number_twice"
   ],
   "note": "Building the help and its text are proved; definition_help, record_help and variants_help are the lines for definitions and types. In the shell it is shown unchanged if no line of it looks like a heading (false otherwise: help_panics). Types of input are told apart unless a type is named like the text of another (number_twice)."
  },
  {
   "property": "C83",
   "status": "partial",
   "theorems": [
    "Verif.ParseErr.refused_or_read",
    "Verif.ParseErr.errors_fit",
    "Verif.ParseErr.errors_place",
    "Verif.ParseErr.errors_print",
    "Verif.ParseErr.completion_partial",
    "Verif.ParseErr.completion_fits",
    "Verif.ParseErr.slash_panics",
    "Verif.ParseErr.no_command_said"
   ],
   "note": "The claims about errors are proved. Completion does not crash for lines without a path and without a slash at the end; behind a name and a slash it does (slash_panics)."
  },
  {
   "property": "C84",
   "status": "partial",
   "theorems": [
    "Verif.Enter.lines_are_requests",
    "Verif.Enter.texts_stored",
    "Verif.Enter.text_has_one_place",
    "Verif.Enter.line_defines_partial",
    "Verif.Enter.line_refused_partial",
    "Verif.Enter.line_defines_type_partial",
    "Verif.Enter.other_lines_change_nothing",
    "Verif.Enter.phrase_lines",
    "Verif.Enter.type_phrases_panic",
    "Verif.Enter.lines_keep_builtins_partial",
    "Verif.Enter.clear_line_restores_partial",
    "Verif.Enter.clear_in_a_string",
    "Verif.Enter.load_in_a_string",
    "Verif.Enter.path_panics",
    "Verif.Enter.load_order_matters",
    "Verif.Enter.file_can_clear"
   ],
   "note": "lines_are_requests and texts_stored are for every session of lines, files and documents, without exceptions. line_defines_partial, line_refused_partial, line_defines_type_partial and phrase_lines together say what one line does. Missing because it is false of the code: lines with one of the phrases looked for anywhere (clear_in_a_string, load_in_a_string), panics at paths and with def-ty (path_panics, type_phrases_panic), record types named like a built-in command (C04)."
  },
  {
   "property": "C85",
   "status": "partial",
   "theorems": [
    "Verif.Listing.iteration_complete",
    "Verif.Listing.nothing_missing",
    "Verif.Listing.list_shown_partial",
    "Verif.Listing.definitions_have_origin",
    "Verif.Listing.same_list_partial",
    "Verif.Listing.list_after_clear_partial",
    "Verif.Listing.input_order_contradicts",
    "Verif.Listing.list_may_panic",
    "Verif.Listing.list_order_open"
   ],
   "note": "The rows, their contents and that nothing is missing are proved for every session and every sort with the documented contract. That the list is always shown and in order by input needs a sort that does not panic on contradictory answers (witness that the contract allows a panic: list_may_panic); that it does not depend on hash order needs that no input type is named like the text of a built-in type (list_order_open)."
  },
  {
   "property": "C86",
   "status": "partial",
   "theorems": [
    "Verif.Turns.one_after_another",
    "Verif.Turns.each_shown",
    "Verif.Turns.aborted_when_asked",
    "Verif.Turns.shown_before",
    "Verif.Turns.not_under_readers",
    "Verif.Turns.stuck_hangs",
    "Verif.Turns.returns_or_hangs",
    "Verif.Turns.comes_back_partial",
    "Verif.Turns.abort_comes_back",
    "Verif.Turns.panic_is_final",
    "Verif.Turns.definition_waits_for_ever",
    "Verif.Turns.panic_hangs",
    "Verif.Turns.abort_then_define",
    "Verif.Turns.help_deadlocks"
   ],
   "note": "Refinement to one line after the other, for all schedules; liveness for fair runs up to six named causes. That the prompt always comes back is false of the code: see the findings in DESIGN.md."
  },
  {
   "property": "C87",
   "status": "partial",
   "theorems": [
    "Verif.Offer.commands_offered",
    "Verif.Offer.types_offered",
    "Verif.Offer.all_asked",
    "Verif.Offer.names_readable",
    "Verif.Offer.offered_reads",
    "Verif.Offer.commands_while_typing",
    "Verif.Offer.commands_first_word",
    "Verif.Offer.listed_below",
    "Verif.Offer.typed_lists",
    "Verif.Offer.all_listed",
    "Verif.Offer.hover_shows",
    "Verif.Offer.hover_only",
    "Verif.Offer.hover_nothing",
    "Verif.Offer.nothing_offered",
    "Verif.Offer.types_not_listed",
    "Verif.Offer.type_not_shown",
    "Verif.Offer.before_blank",
    "Verif.Offer.command_text",
    "Verif.Offer.type_text",
    "Verif.Offer.others_offered"
   ],
   "note": "All histories and orders of the hash maps; the line in front of the typed command is any sequence of blocks without paths. Nothing is offered in some places, and types are offered but not listed: see the findings in DESIGN.md."
  },
  {
   "property": "C88",
   "status": "proved",
   "theorems": [
    "Verif.Typify.typify_shows",
    "Verif.Typify.typify_never_panics",
    "Verif.Typify.bare_E",
    "Verif.Typify.typify_knows",
    "Verif.Typify.settled_shown",
    "Verif.Typify.shown_alike",
    "Verif.Typify.made_variables_untyped"
   ],
   "note": "typify_shows: for every argument of an expanded program and every knowledge of types, the text is that of the written term with its types. typify_never_panics: for every argument node. bare_E: without types it is the source without flags. typify_knows and settled_shown: once a command has made sure an expression compiles, all of its blocks have settled types and all their arguments are shown. shown_alike and made_variables_untyped: findings."
  },
  {
   "property": "C89",
   "status": "partial",
   "theorems": [
    "Verif.Tree.value_shown",
    "Verif.Tree.result_shown",
    "Verif.Tree.shown_apart_partial",
    "Verif.Tree.shown_is_read_partial",
    "Verif.Tree.last_shown_first_read",
    "Verif.Tree.field_hidden",
    "Verif.Tree.variant_hidden",
    "Verif.Tree.unshowable"
   ],
   "note": "Needs that no type has two fields or two variants of one name; without it the claim is false (last_shown_first_read, field_hidden, variant_hidden). value_shown and result_shown hold without it."
  },
  {
   "property": "C90",
   "status": "partial",
   "theorems": [
    "Verif.RunLine.run_reports_partial",
    "Verif.RunLine.flags_seen_partial",
    "Verif.RunLine.file_loaded_partial",
    "Verif.RunLine.report_tells",
    "Verif.RunLine.path_mangled",
    "Verif.RunLine.flag_appears",
    "Verif.RunLine.kinds_kept"
   ],
   "note": "For paths that do not have the text of a flag in them; otherwise the claim is false (path_mangled, flag_appears)."
  },
  {
   "property": "C91",
   "status": "partial",
   "theorems": [
    "Verif.Comp.names_are_lexical_partial",
    "Verif.Lang.commands_names_are_lexical_partial",
    "Verif.Lang.programs_names_are_lexical_partial",
    "Verif.Lang.sessions_names_are_lexical_partial",
    "Verif.Lang.annotation_changes_meaning"
   ],
   "note": "Proved for all sessions and program texts that do not use fold-while, with definitions of at most 256 parameters, none an expression, and no let setting a name twice. With fold-while it is false (annotation_changes_meaning)."
  },
  {
   "property": "C92",
   "status": "partial",
   "theorems": [
    "Verif.Comp.evaluates_as_written_partial",
    "Verif.Lang.commands_evaluate_as_written_partial",
    "Verif.Lang.programs_evaluate_as_written_partial",
    "Verif.Lang.sessions_evaluate_as_written_partial",
    "Verif.Lang.arguments_may_be_dropped"
   ],
   "note": "For sessions and program texts, with all built-in commands but fold-while. Not with parameters that are expressions, more than 256 parameters, or one name twice in a let. Which calls pass nothing is taken from the compiled program; arguments_may_be_dropped shows that it depends on the order of inference."
  },
  {
   "property": "C93",
   "status": "partial",
   "theorems": [
    "Verif.Lang.injected_code_is_as_written_partial",
    "Verif.Lang.keys_compare_as_written_partial",
    "Verif.Lang.tuples_compare_as_written_partial",
    "Verif.Lang.tuples_equal_as_written_partial",
    "Verif.Lang.compile_slot",
    "Verif.Lang.deep_fed",
    "Verif.Lang.user_cmp_orders_keys",
    "Verif.Lang.definitions_change_tuples",
    "Verif.Lang.definitions_hide_elements"
   ],
   "note": "Code that commands compile for themselves evaluates as it is written. Not covered: programs outside C92 (fold-while, expressions as parameters, more than 256 parameters, one name twice in a let); which nameless types are known when the code is compiled is a parameter; that the text made for tuples gives the lexicographic order is not derived here (C26 does so for a hand-made model of that code), and definitions_change_tuples shows that a user definition of != breaks it."
  },
  {
   "property": "C94",
   "status": "partial",
   "theorems": [
    "Verif.Wrap.wrapping_keeps_the_text",
    "Verif.Wrap.rows_fit_and_are_full_partial",
    "Verif.Wrap.tabs_do_not_fit"
   ],
   "note": "No character is lost, for all texts and widths. That rows fit is proved for lines without tabs whose characters are not wider than the terminal; tabs_do_not_fit shows that it fails with tabs."
  },
  {
   "property": "C95",
   "status": "partial",
   "theorems": [
    "Verif.Wrap.cursor_is_after_what_was_typed_partial",
    "Verif.Wrap.scroll_bar_shows_the_place_partial",
    "Verif.Wrap.cursor_leaves_the_screen",
    "Verif.Wrap.empty_lines_move_the_cursor",
    "Verif.Wrap.wide_characters_move_the_cursor",
    "Verif.Wrap.scroll_bar_leaves_an_empty_area"
   ],
   "note": "Cursor: for characters of one column, without tabs, fewer than 65536 of them; it fails at the end of full rows, after empty lines and with wide characters (witnesses). Scroll bar: for areas that are not empty, with floating point division and multiplication by their laws."
  },
  {
   "property": "C96",
   "status": "partial",
   "theorems": [
    "Verif.Dir.ls_lists_the_directory",
    "Verif.Dir.ls_columns",
    "Verif.Dir.ls_ignores_order_partial",
    "Verif.Dir.times_sort_as_texts_partial",
    "Verif.Dir.times_can_be_read_partial",
    "Verif.Dir.odd_names_are_lost",
    "Verif.Dir.early_times_sort_wrongly"
   ],
   "note": "Order independence for names that are text; times in the years 0 to 9999. Names that are not text are shown as empty names (odd_names_are_lost), early times sort wrongly."
  },
  {
   "property": "C97",
   "status": "proved",
   "theorems": [
    "Verif.Dir.benchmark_adds_up"
   ],
   "note": ""
  },
  {
   "property": "C98",
   "status": "partial",
   "theorems": [
    "Verif.Watch.open_gives_what_the_file_holds_partial",
    "Verif.Watch.open_after_a_turn_partial",
    "Verif.Watch.roots_are_confused",
    "Verif.Watch.second_root_is_not_watched",
    "Verif.Watch.change_before_watching",
    "Verif.Watch.renamed_directories_are_not_seen",
    "Verif.Watch.watcher_dies"
   ],
   "note": "Proved for one root, with every change reported file by file while the watcher runs. Otherwise old contents are given; a witness for each case."
  },
  {
   "property": "C99",
   "status": "partial",
   "theorems": [
    "Verif.TyErr.conflict_is_told_partial",
    "Verif.TyErr.refused_change_is_told",
    "Verif.TyErr.wrong_side_is_told",
    "Verif.TyErr.types_are_told_the_wrong_way_round"
   ],
   "note": "The note at the target speaks of the wrong side where an output flows into an input, and types are swapped where a type flows backwards; both are proved as negations."
  },
  {
   "property": "C100",
   "status": "partial",
   "theorems": [
    "Verif.Msg.unused_flags_are_listed",
    "Verif.Msg.unused_args_are_shown",
    "Verif.Msg.flags_of_definitions_partial",
    "Verif.Msg.flags_of_definitions_are_reversed",
    "Verif.Msg.fields_are_listed",
    "Verif.Msg.parameters_are_listed"
   ],
   "note": "Flags given to a definition are listed in reverse (proved as a negation); a definition with one flag left is listed right."
  },
  {
   "property": "C101",
   "status": "partial",
   "theorems": [
    "Verif.DepthMsg.outermost_place_first_partial",
    "Verif.DepthMsg.advice_does_not_fit"
   ],
   "note": "The advice at the outermost place is that of the innermost; it fits if the same is to be inferred there (the other case is proved as a negation)."
  },
  {
   "property": "C102",
   "status": "partial",
   "theorems": [
    "Verif.Advice.input_advice_in_braces",
    "Verif.Advice.input_advice_without_braces",
    "Verif.Advice.output_advice_partial",
    "Verif.Advice.output_advice_dot",
    "Verif.Advice.input_advice_for_a_dot"
   ],
   "note": "The advice about an output after a dot command, and about an input inside braces, can be followed; the advice for the input of a dot cannot (input_advice_for_a_dot)."
  },
  {
   "property": "C103",
   "status": "partial",
   "theorems": [
    "Verif.NotFound.types_are_listed_partial",
    "Verif.NotFound.first_missing_is_named",
    "Verif.NotFound.number_is_no_name"
   ],
   "note": "All types a command takes are listed, each once and nothing else; numbers and texts are listed by names that are no types (number_is_no_name)."
  },
  {
   "property": "C104",
   "status": "partial",
   "theorems": [
    "Verif.Screen.latest_on_top",
    "Verif.Screen.every_row_can_be_seen_partial",
    "Verif.Screen.far_rows_are_never_shown",
    "Verif.Screen.rows_between_are_not_shown"
   ],
   "note": "With at most 65536 rows and a screen of at least five; both bounds are needed (negations)."
  },
  {
   "property": "C105",
   "status": "partial",
   "theorems": [
    "Verif.SaveFile.success_is_true_partial",
    "Verif.SaveFile.success_if_taken",
    "Verif.SaveFile.texts_of_table",
    "Verif.SaveFile.old_contents_are_lost"
   ],
   "note": "Success means the file holds exactly the text, success is reported if the system takes all of it, and after anything else the file holds a beginning of the text; the old contents are lost then (old_contents_are_lost)."
  },
  {
   "property": "C106",
   "status": "partial",
   "theorems": [
    "Verif.Keys.keys_in_order_partial",
    "Verif.Keys.enter_is_kept",
    "Verif.Keys.quick_lines_lose_nothing",
    "Verif.Keys.keys_are_lost",
    "Verif.Keys.abort_is_lost"
   ],
   "note": "Each key is taken once and in order; which are handled, which abort, and when lines begin is settled for every schedule. Keys taken while a line is evaluated are lost (keys_are_lost), Ctrl+x taken together with Enter does nothing (abort_is_lost)."
  },
  {
   "property": "C107",
   "status": "partial",
   "theorems": [
    "Verif.ParSave.saves_do_not_disturb_partial",
    "Verif.ParSave.same_file_is_mixed"
   ],
   "note": "Items of a batch that save different files, in any order of their calls. Not: items that save the same file (false, same_file_is_mixed)."
  },
  {
   "property": "C108",
   "status": "partial",
   "theorems": [
    "Verif.Watch.saved_is_opened_partial",
    "Verif.Watch.saved_is_opened_after_a_turn_partial",
    "Verif.Watch.saved_is_not_opened"
   ],
   "note": "If the file was not read before or the change was noticed in the meantime. Not: right after saving a file that was opened before (false, saved_is_not_opened)."
  },
  {
   "property": "C109",
   "status": "partial",
   "theorems": [
    "Verif.Io.same_place_partial",
    "Verif.Io.ls_lists_the_directory",
    "Verif.Io.cd_moves_its_tab",
    "Verif.Io.ls_fails_in_the_root",
    "Verif.Io.places_differ"
   ],
   "note": "With the root of the shell as it is started. Not: ls after going back to the root directory (false, ls_fails_in_the_root), other roots (false, places_differ)."
  },
  {
   "property": "C110",
   "status": "partial",
   "theorems": [
    "Verif.Server.requests_answered_once_partial",
    "Verif.Server.document_is_the_editors_partial",
    "Verif.Server.definitions_of_one_time",
    "Verif.Server.definitions_after_save_partial",
    "Verif.Server.announced_but_not_answered",
    "Verif.Server.change_overtakes_open",
    "Verif.Server.save_overtakes_change"
   ],
   "note": "Requests with a handler; documents whose opening is carried out before their edits are received; definitions after a save if messages are carried out in turn. Not: announced requests without a handler (false, announced_but_not_answered), edits that overtake the opening (false, change_overtakes_open), saves that overtake edits (false, save_overtakes_change)."
  }
 ]
}
