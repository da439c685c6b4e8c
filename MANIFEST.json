{
 "claims": [
  {
   "property": "C01",
   "status": "proved",
   "theorems": [
    "Verif.TextEdit.C01_apply_is_simultaneous"
   ],
   "note": "Whole model of TextEdit::apply; panic paths excluded exactly by the stated validity conditions."
  },
  {
   "property": "C02",
   "status": "proved",
   "theorems": [
    "Verif.TextEdit.C02_accepts_iff",
    "Verif.TextEdit.C02_order_irrelevant",
    "Verif.TextEdit.C02_insertions_at_one_offset_ordered"
   ],
   "note": "Builder accepts iff edits are pairwise disjoint; result independent of the order of non-insertions."
  },
  {
   "property": "C03",
   "status": "partial",
   "theorems": [
    "Verif.TextEdit.C03_union_keeps_both",
    "Verif.TextEdit.C03_union_refusal",
    "Verif.TextEdit.C03_union_accepts",
    "Verif.TextEdit.C03_union_symmetric_fails",
    "Verif.TextEdit.C03_insert_source_edit",
    "Verif.TextEdit.C03_insert_source_edit_overlap_lost_fails"
   ],
   "note": "Merging keeps both edits when accepted; the property is false in two respects, proved with witnesses: union is not symmetric, and an overlapping second edit for the same file is dropped by SourceChange::insert_source_edit in release builds."
  },
  {
   "property": "C04",
   "status": "proved",
   "theorems": [
    "Verif.TextEdit.C04_offset_undefined_iff",
    "Verif.TextEdit.C04_offset_splits",
    "Verif.TextEdit.C04_offset_monotone",
    "Verif.TextEdit.C04_untouched_neighbours"
   ],
   "note": ""
  },
  {
   "property": "C05",
   "status": "partial",
   "theorems": [
    "Verif.TextEdit.C05_builder_duplicate_fails",
    "Verif.TextEdit.C05_merge_duplicate_partial"
   ],
   "note": "False for the builder (witness proved); holds for union, where identical replacements are merged."
  },
  {
   "property": "C06",
   "status": "partial",
   "theorems": [
    "Verif.LineEndings.C06_normalize",
    "Verif.LineEndings.C06_round_trip",
    "Verif.LineEndings.C06_no_crlf_left_fails",
    "Verif.LineEndings.C06_idempotent_partial",
    "Verif.LineEndings.C06_utf8_preserved"
   ],
   "note": "Conversion, recorded ending, round trip and UTF-8 soundness proved for all texts. 'No CRLF left' and idempotence are false for CR CR LF (witness proved), and proved for all other texts."
  },
  {
   "property": "C07",
   "status": "partial",
   "theorems": [
    "Verif.Documents.C07_cached_index_transparent",
    "Verif.Documents.C07_whole_document",
    "Verif.Documents.C07_changes_applied",
    "Verif.Documents.C07_stale_index_fails",
    "Verif.Documents.C07_inside_surrogate_pair_panics_fails",
    "Verif.Documents.C07_no_panic"
   ],
   "note": "Any sequence of whole-document and in-order range changes is applied as the protocol says (C07_changes_applied); two disagreements for malformed ranges have witnesses: reversed ranges meet a stale index, and a position inside a surrogate pair panics."
  },
  {
   "property": "C08",
   "status": "proved",
   "theorems": [
    "Verif.ClientEdits.C08_disjointness_exact",
    "Verif.ClientEdits.C08_order_irrelevant"
   ],
   "note": "Exact for well-formed ranges (start ≤ end), the only ones the protocol allows."
  },
  {
   "property": "C09",
   "status": "proved",
   "theorems": [
    "Verif.Documents.C09_round_trip",
    "Verif.Documents.C09_positions_distinct",
    "Verif.Documents.C09_monotone"
   ],
   "note": ""
  },
  {
   "property": "C10",
   "status": "partial",
   "theorems": [
    "Verif.Documents.C10_past_end_of_line_fails",
    "Verif.Documents.C10_past_end_of_line_partial",
    "Verif.Documents.C10_defined_iff"
   ],
   "note": "False on lines that are not the last: the column is clamped one byte too far, to the start of the next line (witness). Exact behaviour proved."
  },
  {
   "property": "C11",
   "status": "partial",
   "theorems": [
    "Verif.Workspace.C11_mirrors_editor",
    "Verif.Workspace.C11_no_crash_partial"
   ],
   "note": "Mirroring proved for all histories in which the server does not crash; the crash itself (a file vanishing from disk) is C20. Absence of crashes is proved for histories without vanishing files."
  },
  {
   "property": "C12",
   "status": "proved",
   "theorems": [
    "Verif.OpQueue.C12_single_flight_no_loss",
    "Verif.OpQueue.C12_panics_iff",
    "Verif.OpQueue.C12_main_loop"
   ],
   "note": ""
  },
  {
   "property": "C13",
   "status": "partial",
   "theorems": [
    "Verif.OpQueue.C13_forced_reload_lost_fails",
    "Verif.OpQueue.C13_main_loop_fails",
    "Verif.OpQueue.C13_latest_request_honoured_partial"
   ],
   "note": "False: a forced request followed by a plain one before the operation starts loses the force flag (witness in the queue and in the main loop). Proved: the latest request is the one honoured."
  },
  {
   "property": "C14",
   "status": "proved",
   "theorems": [
    "Verif.Server.C14_at_most_one_response",
    "Verif.Server.C14_unique_ids"
   ],
   "note": "For every interleaving of workers, retries, cancellations and the main loop, for clients with distinct request ids."
  },
  {
   "property": "C15",
   "status": "partial",
   "theorems": [
    "Verif.Server.C15_answered_or_in_flight_partial",
    "Verif.Server.C15_progress",
    "Verif.Server.C15_worker_answer",
    "Verif.Server.C15_worker_codes",
    "Verif.Server.C15_sync_cancelled_fails",
    "Verif.Server.C15_dispatch_exhaustive"
   ],
   "note": "Every received request is answered or still in flight, everything in flight can always make progress to an answer, and the answer of a worker is the documented one (internal error for a panic, the documented code for a cancellation); false for a synchronous handler that ends in a cancellation (witness: the request is never answered)."
  },
  {
   "property": "C16",
   "status": "partial",
   "theorems": [
    "Verif.Server.C16_refused_partial",
    "Verif.Server.C16_second_shutdown_fails"
   ],
   "note": "Every request other than shutdown is refused after shutdown; a second shutdown request is answered with success (witness)."
  },
  {
   "property": "C17",
   "status": "proved",
   "theorems": [
    "Verif.Server.Loop.C17_status_exactly_on_change",
    "Verif.Server.Loop.C17_status_meaning"
   ],
   "note": ""
  },
  {
   "property": "C18",
   "status": "proved",
   "theorems": [
    "Verif.Server.Loop.C18_failed_reload_keeps_workspace",
    "Verif.Server.Loop.C18_versions_increase"
   ],
   "note": ""
  },
  {
   "property": "C19",
   "status": "partial",
   "theorems": [
    "Verif.Server.Outgoing.C19_responses_partial",
    "Verif.Server.Outgoing.C19_panics_iff",
    "Verif.Server.Outgoing.C19_unknown_response_fails"
   ],
   "note": "False: a response with an unknown id, or a second response, panics (witness, exact condition). Proved for clients that answer each request at most once."
  },
  {
   "property": "C20",
   "status": "partial",
   "theorems": [
    "Verif.Workspace.C20_every_file_in_package_partial",
    "Verif.Workspace.C20_recreated_file_fails",
    "Verif.Workspace.C20_exactly_named_files",
    "Verif.Workspace.C20_panics_iff",
    "Verif.Workspace.C20_process_panics_iff",
    "Verif.Workspace.C20_database_up_to_date",
    "Verif.Workspace.C20_deletion_fails",
    "Verif.Workspace.C20_close_unsaved_fails"
   ],
   "note": "Last-write-wins proved for every batch that is applied; exact condition for the panic; every known file is in its package if no file vanishes; false for deletions, which always panic because the deleted file is in none of the new package roots, and for files created, deleted and created again within one cycle, which get no package (witnesses as full histories)."
  },
  {
   "property": "C21",
   "status": "proved",
   "theorems": [
    "Verif.SpecFiles.C21_related_exactly",
    "Verif.SpecFiles.C21_symmetric",
    "Verif.SpecFiles.C21_not_move",
    "Verif.SpecFiles.C21_double_suffix_asymmetric"
   ],
   "note": "For all packages and all usual names; the asymmetry outside the property's scope (a.spec.spec.move) is shown too."
  },
  {
   "property": "C22",
   "status": "partial",
   "theorems": [
    "Verif.Packages.C22_workspace_partial",
    "Verif.Packages.C22_collect_partial",
    "Verif.Packages.C22_exactly_reachable",
    "Verif.Packages.C22_same_name_fails"
   ],
   "note": "Proved for every file system in which no two reachable packages share a name; the witness theorem shows the loader skips a package whose name was already seen."
  },
  {
   "property": "C23",
   "status": "proved",
   "theorems": [
    "Verif.Packages.C23_loads_exactly_reachable",
    "Verif.Packages.C23_workspace"
   ],
   "note": "Loading reads each reachable manifest exactly once and terminates for every (also cyclic) dependency graph."
  },
  {
   "property": "C24",
   "status": "partial",
   "theorems": [
    "Verif.Packages.C24_members_are_local_partial",
    "Verif.Packages.C24_order_irrelevant_partial",
    "Verif.Packages.C24_git_dependency_fails",
    "Verif.Packages.C24_unresolved_member_fails"
   ],
   "note": "Proved when all members resolve dependencies and none is reached through a git dependency; the two witnesses show that otherwise the outcome depends on the order of the members."
  },
  {
   "property": "C25",
   "status": "partial",
   "theorems": [
    "Verif.Lexer.C25_tokens_tile_text",
    "Verif.Lexer.C25_terminates",
    "Verif.Lexer.C25_no_panic_partial"
   ],
   "note": "Losslessness and termination for every text whenever lexing returns; absence of panics only if block comments are ASCII (see C26)."
  },
  {
   "property": "C26",
   "status": "partial",
   "theorems": [
    "Verif.Lexer.C26_length_counts_characters_partial",
    "Verif.Lexer.C26_closed_iff_ascii_partial",
    "Verif.Lexer.C26_ascii_comment_exact_partial",
    "Verif.Lexer.C26_cut_short_fails",
    "Verif.Lexer.C26_panics_fails"
   ],
   "note": "Exact for ASCII comments; for closed comments the computed length is right if and only if the comment is ASCII. Witnesses show truncation and a panic."
  },
  {
   "property": "C27",
   "status": "proved",
   "theorems": [
    "Verif.TokenSet.C27_contains_iff_mem",
    "Verif.TokenSet.C27_contains_iff_mem_small",
    "Verif.TokenSet.C27_kinds_lists_members",
    "Verif.TokenSet.C27_isEmpty_iff",
    "Verif.TokenSet.C27_large_kind_aliases_fails"
   ],
   "note": "For every kind the parser can look at; the _fails theorem shows what happens for larger kinds, which the parser never looks up."
  },
  {
   "property": "C28",
   "status": "proved",
   "theorems": [
    "Verif.Parser.C28_tree_reproduces_text",
    "Verif.Parser.C28_any_events"
   ],
   "note": "all texts through lexer, grammar and sink; leaves are the tokens in order, grouped and renamed; also for any balanced events"
  },
  {
   "property": "C29",
   "status": "proved",
   "theorems": [
    "Verif.Parser.C29_rollback_restores",
    "Verif.Parser.C29_completed_rollback_restores",
    "Verif.Parser.C29_alternatives_leave_no_trace"
   ],
   "note": "any sequence of marker operations, both rollback forms, and every alternative of the grammar"
  },
  {
   "property": "C30",
   "status": "proved",
   "theorems": [
    "Verif.Parser.C30_terminates",
    "Verif.Parser.C30_covers"
   ],
   "note": "whole grammar; fuel linear in the length of the text is always enough; every token is in a leaf"
  },
  {
   "property": "C31",
   "status": "partial",
   "theorems": [
    "Verif.Parser.C31_module_path_fails",
    "Verif.Parser.C31_behavior_predicate_fails",
    "Verif.Parser.C31_apply_lemma_fails",
    "Verif.Parser.C31_include_fails",
    "Verif.Parser.C31_attribute_fails",
    "Verif.Parser.C31_type_argument_fails",
    "Verif.Parser.C31_name_pattern_fails",
    "Verif.Parser.C31_no_panic_partial",
    "Verif.Parser.C31_sink_never_panics_partial"
   ],
   "note": "false: seven panicking texts proved; proved for release builds outside four syntactic hazards"
  },
  {
   "property": "C32",
   "status": "proved",
   "theorems": [
    "Verif.Comments.C32_longest_prefix",
    "Verif.Comments.C32_documented_kind",
    "Verif.Comments.C32_prefix_of_text",
    "Verif.Comments.C32_text_extraction",
    "Verif.Comments.C32_lexed_comments"
   ],
   "note": ""
  },
  {
   "property": "C33",
   "status": "proved",
   "theorems": [
    "Verif.Types.C33_lookup_terminates",
    "Verif.Types.C33_acyclic",
    "Verif.Types.C33_unify",
    "Verif.Types.C33_bind"
   ],
   "note": "Proved for every sequence of table operations from the empty table (Reachable)."
  },
  {
   "property": "C34",
   "status": "proved",
   "theorems": [
    "Verif.Types.C34_question",
    "Verif.Types.C34_nested",
    "Verif.Types.C34_rollback_never_panics"
   ],
   "note": "Proved for every program of the operations of the context with arbitrarily nested freeze and spec scopes."
  },
  {
   "property": "C35",
   "status": "partial",
   "theorems": [
    "Verif.Types.C35_sequence_partial",
    "Verif.Types.C35_assign_partial",
    "Verif.Types.C35_occurs",
    "Verif.Types.C35_no_panic_partial",
    "Verif.Types.C35_unknown_fails",
    "Verif.Types.C35_cycle_fails"
   ],
   "note": "False as stated: C35_unknown_fails (panic), C35_cycle_fails (divergence). Proved if in every check one of the types has no type variable and no unknown part, or is a type variable without value (with the exact value it gets, C35_occurs); missing: a weaker sufficient condition for two composite types that both have variables."
  },
  {
   "property": "C36",
   "status": "partial",
   "theorems": [
    "Verif.Types.C36_lax_partial",
    "Verif.Types.C36_exact_partial",
    "Verif.Types.C36_range_fails",
    "Verif.Types.C36_arity_fails",
    "Verif.Types.C36_return_fails",
    "Verif.Types.C36_direction_fails",
    "Verif.Types.C36_question_partial"
   ],
   "note": "False for ranges, callable types and the argument order of is_tys_compatible (four _fails theorems). Proved: soundness for all ground types with these lax rules, and the exact characterisation for ground types without ranges, callable types and tuples of one element."
  },
  {
   "property": "C37",
   "status": "proved",
   "theorems": [
    "Verif.Types.C37_exact",
    "Verif.Types.C37_nothing_else",
    "Verif.Types.C37_depends_on_occurring",
    "Verif.Types.C37_identity",
    "Verif.Types.C37_compose",
    "Verif.Types.C37_lookup"
   ],
   "note": "Proved for every type and substitution, at every position of the type."
  },
  {
   "property": "C38",
   "status": "proved",
   "theorems": [
    "Verif.Types.C38_autoborrow",
    "Verif.Types.C38_never_mutable"
   ],
   "note": "Proved for all types."
  },
  {
   "property": "C39",
   "status": "partial",
   "theorems": [
    "Verif.Types.C39_argument_partial",
    "Verif.Types.C39_spec_argument",
    "Verif.Types.C39_complete_partial",
    "Verif.Types.C39_exact_partial",
    "Verif.Types.C39_unit_fails",
    "Verif.Types.C39_vector_key_fails",
    "Verif.Types.C39_generic_struct_fails"
   ],
   "note": "False for unit, vectors of key values and generic structures (three _fails theorems). Proved: every ability of the reference is computed, and exactly these on types without those parts."
  },
  {
   "property": "C40",
   "status": "partial",
   "theorems": [
    "Verif.Nameres.C40_short_partial",
    "Verif.Nameres.C40_equal_partial",
    "Verif.Nameres.C40_named_partial",
    "Verif.Nameres.C40_equivalence",
    "Verif.Nameres.C40_hex_sound",
    "Verif.Nameres.C40_case_fails",
    "Verif.Nameres.C40_decimal_fails"
   ],
   "note": "False as stated: C40_case_fails (capital hex digits), C40_decimal_fails (decimal addresses). Proved for hexadecimal addresses with lower-case digits."
  },
  {
   "property": "C41",
   "status": "partial",
   "theorems": [
    "Verif.Nameres.C41_modifier",
    "Verif.Nameres.C41_rule",
    "Verif.Nameres.C41_everything",
    "Verif.Nameres.C41_specification",
    "Verif.Nameres.C41_builtin",
    "Verif.Nameres.C41_use",
    "Verif.Nameres.C41_marked_partial",
    "Verif.Nameres.C41_use_fails"
   ],
   "note": "Exact rule outside of use statements; in use statements the scope of test-only items is ignored (C41_use_fails). Friend resolution, packages and the builtins module are parameters."
  },
  {
   "property": "C42",
   "status": "partial",
   "theorems": [
    "Verif.Nameres.C42_marked",
    "Verif.Nameres.C42_some",
    "Verif.Nameres.C42_nearest_partial",
    "Verif.Nameres.C42_recorded",
    "Verif.Nameres.C42_collision_fails"
   ],
   "note": "Proved when no two nodes of the file share kind and range (empty nodes could); shrinking for #[verify_only]/#[test] items and the lookup are modelled."
  },
  {
   "property": "C43",
   "status": "proved",
   "theorems": [
    "Verif.Nameres.C43_latest",
    "Verif.Nameres.C43_single",
    "Verif.Nameres.C43_order",
    "Verif.Nameres.C43_not_later",
    "Verif.Nameres.C43_bindings"
   ],
   "note": "Binding order of let statements in a block, including MSL post lets, for names produced by patterns."
  },
  {
   "property": "C44",
   "status": "proved",
   "theorems": [
    "Verif.Ide.Highlights.C44_tiles",
    "Verif.Ide.Highlights.C44_sorted",
    "Verif.Ide.Highlights.C44_overlap_fails"
   ],
   "note": "For properly nested, non-empty ranges inside the document; C44_overlap_fails shows what happens without nesting."
  },
  {
   "property": "C45",
   "status": "proved",
   "theorems": [
    "Verif.SemTokens.C45_decode",
    "Verif.SemTokens.C45_out_of_order_overflows"
   ],
   "note": ""
  },
  {
   "property": "C46",
   "status": "proved",
   "theorems": [
    "Verif.SemTokens.C46_delta_reconstructs",
    "Verif.SemTokens.C46_no_edit_iff"
   ],
   "note": ""
  },
  {
   "property": "C47",
   "status": "proved",
   "theorems": [
    "Verif.Completion.C47_sort_text_order",
    "Verif.Completion.C47_items",
    "Verif.Completion.C47_ranking"
   ],
   "note": ""
  },
  {
   "property": "C48",
   "status": "partial",
   "theorems": [
    "Verif.TextEdit.TreeDiff.C48_partial",
    "Verif.TextEdit.TreeDiff.C48_empty_fails"
   ],
   "note": "Proved for old trees without empty elements, in any order of the replacements and with any text around; for trees with empty elements the edit can be wrong (C48_empty_fails)."
  },
  {
   "property": "C49",
   "status": "partial",
   "theorems": [
    "Verif.Ide.Extend.C49_contains",
    "Verif.Ide.Extend.C49_progress",
    "Verif.Ide.Extend.C49_selections",
    "Verif.Ide.Extend.C49_whole_partial",
    "Verif.Ide.Extend.C49_text",
    "Verif.Ide.Extend.C49_skips_nothing",
    "Verif.Ide.Extend.C49_answer",
    "Verif.Ide.Extend.C49_unfinished_fails"
   ],
   "note": "Containment, progress on selections of some text, nesting and termination are proved for the trees of all texts that parse. That the last range is the whole file needs a tree without empty nodes (C49_whole_partial); otherwise it is false (C49_unfinished_fails)."
  },
  {
   "property": "C50",
   "status": "partial",
   "theorems": [
    "Verif.Ide.Assists.C50_nest",
    "Verif.Ide.Assists.C50_order",
    "Verif.Ide.Assists.C50_name",
    "Verif.Ide.Assists.C50_protocol_partial",
    "Verif.Ide.Assists.C50_generate_fails",
    "Verif.Ide.Assists.C50_only_partial",
    "Verif.Ide.Assists.C50_only_fails"
   ],
   "note": "Nesting is a partial order; the protocol names are recovered except for Generate (C50_generate_fails), and the empty requested kind offers nothing (C50_only_fails)."
  },
  {
   "property": "C51",
   "status": "partial",
   "theorems": [
    "Verif.Ide.C51_count",
    "Verif.Ide.C51_monotone",
    "Verif.Ide.C51_argument",
    "Verif.Ide.C51_comma",
    "Verif.Ide.C51_token",
    "Verif.Ide.C51_owner",
    "Verif.Ide.C51_signature",
    "Verif.Ide.C51_completion_fails"
   ],
   "note": "Proved for signature help; completion passes the cursor offset, which differs just before a comma (C51_completion_fails)."
  },
  {
   "property": "C52",
   "status": "partial",
   "theorems": [
    "Verif.Nameres.C52_found",
    "Verif.Nameres.C52_innermost",
    "Verif.Nameres.C52_goto_partial",
    "Verif.Nameres.C52_shadow_fails"
   ],
   "note": "Innermost loop with the label proved when no other enclosing loop repeats it; a repeated label resolves to nothing (C52_shadow_fails)."
  },
  {
   "property": "C53",
   "status": "partial",
   "theorems": [
    "Verif.ClientEdits.C53_split_same_effect",
    "Verif.ClientEdits.C53_panics_iff",
    "Verif.ClientEdits.C53_touching_edit_fails"
   ],
   "note": "Same effect proved for all edits whose replacements do not touch the identifier; exact condition for the panic; an edit that merely touches the identifier panics (witness)."
  },
  {
   "property": "C54",
   "status": "proved",
   "theorems": [
    "Verif.Server.Loop.C54_quiescent_means_settled"
   ],
   "note": ""
  },
  {
   "property": "C55",
   "status": "proved",
   "theorems": [
    "Verif.Server.Loop.C55_changes_are_announced",
    "Verif.Server.Loop.C55_becoming_ready_is_announced"
   ],
   "note": "The 'graph' rebuild at the end of a file-loader scan is not counted as a file change."
  },
  {
   "property": "C56",
   "status": "proved",
   "theorems": [
    "Verif.Lexer.C56_kinds_agree_with_text"
   ],
   "note": "The grapheme segmentation crate is a parameter; only that the first cluster is non-empty is used."
  },
  {
   "property": "C57",
   "status": "proved",
   "theorems": [
    "Verif.Lexer.C57_accepts_exactly_identifiers",
    "Verif.Lexer.C57_accepted_form"
   ],
   "note": "The segmentation crate is assumed to make ASCII characters clusters of their own (except CR LF)."
  },
  {
   "property": "C58",
   "status": "proved",
   "theorems": [
    "Verif.Comments.C58_text_without_quotes",
    "Verif.Comments.C58_lexed_strings"
   ],
   "note": ""
  },
  {
   "property": "C59",
   "status": "partial",
   "theorems": [
    "Verif.Nameres.C59_innermost",
    "Verif.Nameres.C59_scopes",
    "Verif.Nameres.C59_asked",
    "Verif.Nameres.C59_brings",
    "Verif.Nameres.C59_local",
    "Verif.Nameres.C59_for_fails"
   ],
   "note": "The index of a for loop is visible in its own range expression (C59_for_fails). Items of modules, use imports and builtins are parameters."
  },
  {
   "property": "C60",
   "status": "partial",
   "theorems": [
    "Verif.Ide.Assists.C60_id",
    "Verif.Ide.Assists.C60_offered",
    "Verif.Ide.Assists.C60_lazy",
    "Verif.Ide.Assists.C60_eager",
    "Verif.Ide.Assists.C60_resolve_partial",
    "Verif.Ide.Assists.C60_stale",
    "Verif.Ide.Assists.C60_answer",
    "Verif.Ide.Assists.C60_fallible_fails",
    "Verif.Ide.Assists.C60_other_file_fails"
   ],
   "note": "Proved when every offered fix can make its edit and the answer is computed from the same state; false otherwise (C60_fallible_fails, C60_other_file_fails). A stale version of the file is refused."
  },
  {
   "property": "C61",
   "status": "partial",
   "theorems": [
    "Verif.Ide.Signature.C61_texts",
    "Verif.Ide.Signature.C61_offsets_partial",
    "Verif.Ide.Signature.C61_empty_fails",
    "Verif.Ide.Signature.C61_units_fails",
    "Verif.Ide.Signature.C61_marked_partial",
    "Verif.Ide.Signature.C61_active_fails"
   ],
   "note": "The texts of the parameters are proved to be what the label consists of, without offsets for every signature, with offsets when all characters are in the basic plane; refuted for an empty signature, other characters and an argument too many."
  },
  {
   "property": "C62",
   "status": "partial",
   "theorems": [
    "Verif.Ide.Usages.C62_any_sound",
    "Verif.Ide.Usages.C62_any_partial",
    "Verif.Ide.Usages.C62_whole_file",
    "Verif.Ide.Usages.C62_local_partial",
    "Verif.Ide.Usages.C62_one_file",
    "Verif.Ide.Usages.C62_proof_fails",
    "Verif.Ide.Usages.C62_loop_fails",
    "Verif.Ide.Usages.C62_variant_fails",
    "Verif.Ide.Usages.C62_sound",
    "Verif.Ide.Usages.C62_complete_partial",
    "Verif.Ide.Usages.C62_once",
    "Verif.Ide.Usages.C62_text_partial"
   ],
   "note": "Proved for every classification of names: what is reported refers to the item and has its name (C62_sound); in parsed files every name in the searched part that refers to the item is reported unless a letter, digit or underscore is directly in front of it (C62_text_partial; the grammar never puts an identifier there in a text without errors, which is not proved); no name is reported twice if the nodes of names have one token (C62_once_partial); the searched part covers every place where name resolution finds a local binding, except outside the block of a function and outside the body of a for (C62_local_partial), and both exceptions occur (C62_proof_fails, C62_loop_fails); uses of a variant in a pattern are never reported (C62_variant_fails); a search limited to a file is exact (C62_one_file)."
  },
  {
   "property": "C63",
   "status": "partial",
   "theorems": [
    "Verif.Ide.Rename.C63_shorthand_fails",
    "Verif.Ide.Rename.C63_capture_fails",
    "Verif.Ide.Rename.C63_label_fails",
    "Verif.Ide.Rename.C63_prepare_fails",
    "Verif.Ide.Rename.C63_local_partial",
    "Verif.Ide.Rename.C63_literal_shorthand",
    "Verif.Ide.Rename.C63_literal_full",
    "Verif.Ide.Rename.C63_pattern_shorthand",
    "Verif.Ide.Rename.C63_pattern_full",
    "Verif.Ide.Rename.C63_accepted",
    "Verif.Ide.Rename.C63_refused",
    "Verif.Ide.Rename.C63_accepts",
    "Verif.Ide.Rename.C63_definition",
    "Verif.Ide.Rename.C63_definition_refers",
    "Verif.Ide.Rename.C63_prepare",
    "Verif.Ide.Rename.C63_edits_partial",
    "Verif.Ide.Rename.C63_tree_partial"
   ],
   "note": "Proved for every classification of names: applying the edits gives exactly the text in which the name in the definition and every name in the scope that refers to it is the new one (C63_edits_partial), and that text parses to the same tree with the new name at those leaves and as many errors (C63_tree_partial). Missing there: uses in shorthands of struct literals and patterns, names next to a quote, a name character or a character that is not ASCII, old or new names that are words of the grammar, files with block comments that are not ASCII (see C26), and nodes of names with several tokens. What a single edit does to a shorthand, and to a field that can become one, is proved separately (C63_literal_shorthand, C63_literal_full, C63_pattern_shorthand, C63_pattern_full), as is which new names are accepted and which definition is renamed. For local variables and parameters every name that is looked up in scopes refers to the same definition afterwards if the new name is not in use there (C63_local_partial). Four ways in which the claim is false are shown."
  },
  {
   "property": "C64",
   "status": "partial",
   "theorems": [
    "Verif.Parser.C64_body_partial",
    "Verif.Parser.C64_expression_partial",
    "Verif.Parser.C64_file_partial",
    "Verif.Parser.C64_unique_partial",
    "Verif.Parser.C64_two_operators",
    "Verif.Parser.C64_every_expression",
    "Verif.Parser.C64_return_fails",
    "Verif.Parser.C64_range_fails",
    "Verif.Parser.C64_comparison_fails"
   ],
   "note": "Proved for expressions of names, literals, parentheses, unary and binary operators, casts to paths, fields, indexes, calls and method calls, nested to any depth: in any state of the parser the events that are added stand for the tree of the expression (C64_expression_partial); a file with a constant of this value has exactly that tree and no error (C64_file_partial); two ways to read the same tokens are the same tree (C64_unique_partial). Missing: the other forms of expressions, other types in casts, type arguments, names that are words of the specifications, and expressions in other items than constants in the whole-file theorem. The table of levels is the one of the extension. Three ways in which the claim is false are shown."
  },
  {
   "property": "C65",
   "status": "partial",
   "theorems": [
    "Verif.Ide.C65_factory_partial",
    "Verif.Ide.C65_index_fails",
    "Verif.Ide.C65_compound_fails",
    "Verif.Ide.C65_word_fails",
    "Verif.Ide.C65_method",
    "Verif.Ide.C65_compound",
    "Verif.Ide.C65_compound_operator",
    "Verif.Ide.C65_cast",
    "Verif.Ide.C65_cast_fails",
    "Verif.Ide.C65_index_partial",
    "Verif.Ide.C65_resource",
    "Verif.Ide.C65_receiver",
    "Verif.Ide.C65_index_base",
    "Verif.Ide.C65_resource_shape",
    "Verif.Ide.C65_file_partial"
   ],
   "note": "Proved for the expressions of C64: the method-call, compound-assignment and resource-index fixes keep the operands of every operator around them (C65_method, C65_compound, C65_compound_operator, C65_resource), removing a cast does so exactly if the next operator is not of a higher level than those in the operand (C65_cast), the index fix does so if an index can follow the borrowed expression (C65_index_partial); a file with the new text is then parsed to the new tree (C65_file_partial), and the factory gives the node for the text (C65_factory_partial). Missing: the other forms of expressions, the checks on types before a fix is offered, the white space of the new text. Four ways in which the claim is false are shown."
  },
  {
   "property": "C66",
   "status": "partial",
   "theorems": [
    "Verif.Ide.C66_enum_fails",
    "Verif.Ide.C66_variant_fails",
    "Verif.Ide.C66_friend_fails",
    "Verif.Ide.C66_spec_module_fails",
    "Verif.Ide.C66_imports",
    "Verif.Ide.C66_unused_partial",
    "Verif.Ide.C66_test_only_partial",
    "Verif.Ide.C66_unmentioned",
    "Verif.Ide.C66_report",
    "Verif.Ide.C66_test_report",
    "Verif.Ide.C66_unfinished"
   ],
   "note": "Proved: what a use statement imports, and under which names (C66_imports); without an unused import every base of a path of one or two elements may mean the same as before (C66_unused_partial), the same outside of tests for imports that are reported as used in tests only (C66_test_only_partial), what is marked (C66_report, C66_test_report), that all imports that are not mentioned are reported (C66_unmentioned), and that nothing is marked while a statement is unfinished (C66_unfinished). Missing: longer paths, modules named alone, enums that qualify variants, `spec module` blocks; for all of these the claim is shown to be false (C66_enum_fails, C66_variant_fails, C66_friend_fails, C66_spec_module_fails). Imports are as Move asks (no name imported twice); visibility and expected types are not looked at."
  },
  {
   "property": "C67",
   "status": "partial",
   "theorems": [
    "Verif.Ide.C67_named_fails",
    "Verif.Ide.C67_use_fails",
    "Verif.Ide.C67_short_variant_fails",
    "Verif.Nameres.Full.C67_module",
    "Verif.Nameres.Full.C67_value",
    "Verif.Nameres.Full.C67_named_partial",
    "Verif.Nameres.Full.C67_use_partial",
    "Verif.Nameres.Full.C67_group_partial",
    "Verif.Nameres.Full.C67_variant",
    "Verif.Nameres.Full.C67_namespace",
    "Verif.Nameres.Full.C67_called",
    "Verif.Nameres.Full.C67_expected",
    "Verif.Nameres.Full.C67_plain_sound",
    "Verif.Nameres.Full.C67_plain",
    "Verif.Nameres.Full.C67_short",
    "Verif.Nameres.Full.C67_short_variant_partial"
   ],
   "note": "Proved: what paths to modules (C67_module), to items (C67_value) and to variants (C67_variant) at numbered addresses mean, whatever is in scope; the same for named addresses when the name of the address means nothing else at the place (C67_named_partial), and in `use` statements and groups when the module exists (C67_use_partial, C67_group_partial); false without these conditions (C67_named_fails, C67_use_fails). Names without a qualifier mean what is in scope, and only that (C67_plain, C67_plain_sound); a name after the name of a module means the items of that module (C67_short), after the name of an enum its variants, unless the name is also that of an address (C67_short_variant_partial, C67_short_variant_fails)."
  },
  {
   "property": "C68",
   "status": "partial",
   "theorems": [
    "Verif.Editor.C68_all",
    "Verif.Editor.C68_twice_fails",
    "Verif.Ide.Organize.C68_organize_first_fails",
    "Verif.Ide.Organize.C68_organize_last_fails",
    "Verif.Ide.Organize.C68_organize_mixed_fails",
    "Verif.Ide.Organize.C68_organize_tests_fails",
    "Verif.Ide.Organize.C68_organize_group_fails",
    "Verif.Ide.Organize.C68_organize_partial",
    "Verif.Ide.Organize.C68_gone",
    "Verif.Ide.Organize.C68_stays",
    "Verif.Ide.Organize.C68_one",
    "Verif.Ide.Organize.C68_deletes",
    "Verif.Ide.Organize.C68_item",
    "Verif.Ide.Organize.C68_group_partial",
    "Verif.Ide.Organize.C68_first_two_fails",
    "Verif.Ide.Organize.C68_last_two_fails"
   ],
   "note": "Proved: changes that do not get in each other's way are all made, as simultaneous edits of the text (C68_all); one item of a list takes one piece of text with it (C68_item); items of a group are taken out all together or not at all (C68_group_partial); \"Organize imports\" makes all changes it records when nothing is to be taken out twice and nothing is used in tests only (C68_organize_partial); marked items go and the others stay (C68_gone, C68_stays). False when neighbours at the start or the end of a group are unused, and for several imports used in tests only (the _fails theorems). Missing: the positive statement for imports that are used in tests only."
  },
  {
   "property": "C69",
   "status": "partial",
   "theorems": [
    "Verif.Nameres.AutoImport.C69_decimal_fails",
    "Verif.Nameres.AutoImport.C69_word_fails",
    "Verif.Nameres.AutoImport.C69_private_fails",
    "Verif.Nameres.AutoImport.C69_comment_fails",
    "Verif.Nameres.AutoImport.C69_offered",
    "Verif.Nameres.AutoImport.C69_limit",
    "Verif.Nameres.AutoImport.C69_qualified",
    "Verif.Nameres.AutoImport.C69_titles",
    "Verif.Nameres.AutoImport.C69_indent",
    "Verif.Nameres.AutoImport.C69_new_partial",
    "Verif.Nameres.AutoImport.C69_item_partial",
    "Verif.Nameres.AutoImport.C69_module",
    "Verif.Nameres.AutoImport.C69_group",
    "Verif.Nameres.AutoImport.C69_group_partial",
    "Verif.Nameres.AutoImport.C69_pair_partial",
    "Verif.Nameres.AutoImport.C69_where_partial"
   ],
   "note": "Proved: what is offered, when nothing is, and the titles (C69_offered, C69_limit, C69_qualified, C69_titles); where the import goes and when it is for tests (C69_where_partial, up to nodes of the same kind and range); the indentation (C69_indent); the text of the file after a new statement (C69_new_partial) and what the statement imports (C69_item_partial, C69_module); the group that an existing statement becomes (C69_group), with its text if the parser reads the group (C69_group_partial), which is proved for groups of two (C69_pair_partial). Missing: addresses other than names and 0x1, names that are words of the grammar, and that the parser reads groups of more than two. False: no panic, only usable items, comments kept (the _fails theorems)."
  },
  {
   "property": "C70",
   "status": "proved",
   "theorems": [
    "Verif.Outline.C70_tree",
    "Verif.Outline.C70_list",
    "Verif.Outline.C70_ranges"
   ],
   "note": ""
  },
  {
   "property": "C72",
   "status": "partial",
   "theorems": [
    "Verif.Syntax.C72_literal_pat_fails",
    "Verif.Syntax.C72_required_partial",
    "Verif.Syntax.C72_names"
   ],
   "note": ""
  },
  {
   "property": "C71",
   "status": "proved",
   "theorems": [
    "Verif.Symbols.C71_index",
    "Verif.Symbols.C71_answers",
    "Verif.Symbols.C71_upper_fails",
    "Verif.Symbols.C71_limit_fails",
    "Verif.Symbols.C71_container_fails",
    "Verif.Symbols.C71_search"
   ],
   "note": "C71_index, C71_search and C71_answers prove the statement. C71_upper_fails, C71_limit_fails and C71_container_fails are about what a user may expect beyond it: capital letters in the query, an exact match beyond the limit, and the name of the container."
  },
  {
   "property": "C73",
   "status": "partial",
   "theorems": [
    "Verif.Ide.Unused.C73_panic",
    "Verif.Ide.Unused.C73_reported",
    "Verif.Ide.Unused.C73_no_panic",
    "Verif.Ide.Unused.C73_unused",
    "Verif.Ide.Unused.C73_used_partial",
    "Verif.Ide.Unused.C73_scopes_partial",
    "Verif.Ide.Unused.C73_loop_fails",
    "Verif.Ide.Unused.C73_proof_fails",
    "Verif.Ide.Unused.C73_shorthand_fails",
    "Verif.Ide.Unused.C73_capture_fails",
    "Verif.Ide.Unused.C73_fix_partial",
    "Verif.Ide.Unused.C73_meaning_partial"
   ],
   "note": "C73_reported, C73_unused and C73_no_panic hold in full. C73_used_partial and C73_scopes_partial leave out names right behind a character of a name, the specification of a loop and the proof of a lemma (C73_loop_fails, C73_proof_fails). C73_fix_partial and C73_meaning_partial leave out names that are words of the grammar or next to characters that are not ASCII, and need that the new name is not in use (C73_capture_fails); patterns in the short form change their field (C73_shorthand_fails)."
  },
  {
   "property": "C74",
   "status": "partial",
   "theorems": [
    "Verif.Ide.Counts.C74_arguments",
    "Verif.Ide.Counts.C74_unknown",
    "Verif.Ide.Counts.C74_panic",
    "Verif.Ide.Counts.C74_vector",
    "Verif.Ide.Counts.C74_types_partial",
    "Verif.Ide.Counts.C74_bare",
    "Verif.Ide.Counts.C74_tuple_fails",
    "Verif.Ide.Counts.C74_repeated_fails",
    "Verif.Ide.Counts.C74_enum_fails",
    "Verif.Ide.Counts.C74_unpack_fails",
    "Verif.Ide.Counts.C74_literal",
    "Verif.Ide.Counts.C74_pattern",
    "Verif.Ide.Counts.C74_unresolved",
    "Verif.Ide.Counts.C74_tuple_partial"
   ],
   "note": "C74_literal, C74_pattern, C74_arguments, C74_vector, C74_bare, C74_unresolved and C74_unknown hold in full. C74_tuple_partial leaves out tuple patterns with too many fields (C74_tuple_fails), C74_types_partial the places that are not checked (C74_enum_fails, C74_unpack_fails). That a field is given twice is not reported at all (C74_repeated_fails)."
  },
  {
   "property": "C75",
   "status": "partial",
   "theorems": [
    "Verif.Ide.TypeErrors.C75_real",
    "Verif.Ide.TypeErrors.C75_covered_partial",
    "Verif.Ide.TypeErrors.C75_innermost_partial",
    "Verif.Ide.TypeErrors.C75_exact_partial",
    "Verif.Ide.TypeErrors.C75_ranges",
    "Verif.Ide.TypeErrors.C75_order",
    "Verif.Ide.TypeErrors.C75_nested_fails",
    "Verif.Ide.TypeErrors.C75_silent_fails"
   ],
   "note": "C75_real, C75_ranges and C75_order hold in full. C75_covered_partial leaves out errors that contain a mismatch of types that are written alike (C75_silent_fails), C75_innermost_partial and C75_exact_partial errors that start at the same place (C75_nested_fails)."
  },
  {
   "property": "C76",
   "status": "partial",
   "theorems": [
    "Verif.Ide.Simplify.C76_compound",
    "Verif.Ide.Simplify.C76_operators",
    "Verif.Ide.Simplify.C76_calls",
    "Verif.Ide.Simplify.C76_index_partial",
    "Verif.Ide.Simplify.C76_method",
    "Verif.Ide.Simplify.C76_cast_partial",
    "Verif.Ide.Simplify.C76_resource_partial",
    "Verif.Ide.Simplify.C76_reads_partial",
    "Verif.Ide.Simplify.C76_index_fails",
    "Verif.Ide.Simplify.C76_cast_fails",
    "Verif.Ide.Simplify.C76_resource_fails",
    "Verif.Ide.Simplify.C76_twice_fails",
    "Verif.Ide.Simplify.C76_offer_fails"
   ],
   "note": "C76_compound, C76_method and C76_calls hold in full on the expressions of C64. C76_index_partial, C76_cast_partial and C76_resource_partial ask for places where the result needs no parentheses; the others fail (C76_index_fails, C76_cast_fails, C76_resource_fails). C76_reads_partial carries C64_body_partial over to the text after the fix. C76_calls asks that the left side of an assignment calls nothing (C76_twice_fails)."
  },
  {
   "property": "C77",
   "status": "partial",
   "theorems": [
    "Verif.Types.Render.C77_alike_partial",
    "Verif.Types.Render.C77_silent_partial",
    "Verif.Types.Render.C77_message_partial",
    "Verif.Types.Render.C77_hint_partial",
    "Verif.Types.Render.C77_param_fails",
    "Verif.Types.Render.C77_packages_fails",
    "Verif.Types.Render.C77_hint_fails"
   ],
   "note": "C77_alike_partial, C77_silent_partial and C77_message_partial ask that no type parameter is called like a type of the language (C77_param_fails), and leave out type variables, schemas and tuples of no types. Structs are compared by their full names without the package (C77_packages_fails). C77_hint_partial is about structs of other packages that are not of the framework (C77_hint_fails)."
  },
  {
   "property": "C78",
   "status": "partial",
   "theorems": [
    "Verif.Nameres.Locs.C78_sound",
    "Verif.Nameres.Locs.C78_none",
    "Verif.Nameres.Locs.C78_different",
    "Verif.Nameres.Locs.C78_back_partial",
    "Verif.Nameres.Locs.C78_outermost",
    "Verif.Nameres.Locs.C78_scope_partial",
    "Verif.Nameres.Locs.C78_empty_fails"
   ],
   "note": "C78_sound, C78_none, C78_different and C78_outermost hold for all nodes they speak of. C78_back_partial and C78_scope_partial ask that no node of the same kind and range is around the declaration; that the parser makes none is not proved. Nodes with nothing but nodes in them are not covered by C78_different, and for empty ones it does not hold (C78_empty_fails)."
  },
  {
   "property": "C79",
   "status": "partial",
   "theorems": [
    "Verif.Ide.Unresolved.C79_primitive_fails",
    "Verif.Ide.Unresolved.C79_update_fails",
    "Verif.Ide.Unresolved.C79_index_fails",
    "Verif.Ide.Unresolved.C79_pattern_fails",
    "Verif.Ide.Unresolved.C79_label_fails",
    "Verif.Ide.Unresolved.C79_variable_fails",
    "Verif.Ide.Unresolved.C79_true",
    "Verif.Ide.Unresolved.C79_first",
    "Verif.Ide.Unresolved.C79_exempt",
    "Verif.Ide.Unresolved.C79_silent_partial",
    "Verif.Ide.Unresolved.C79_group",
    "Verif.Ide.Unresolved.C79_members",
    "Verif.Ide.Unresolved.C79_unknown",
    "Verif.Ide.Unresolved.C79_message",
    "Verif.Ide.Unresolved.C79_once"
   ],
   "note": "C79_true, C79_first, C79_exempt, C79_group, C79_members, C79_message and C79_once hold for all references they speak of. C79_silent_partial leaves out what is exempt, which is more than it should be (the _fails theorems), and asks that every part of the path ends in a word or is the address at its beginning, as it is without syntax errors."
  },
  {
   "property": "C80",
   "status": "partial",
   "theorems": [
    "Verif.Ide.FieldTypes.C80_types",
    "Verif.Ide.FieldTypes.C80_true",
    "Verif.Ide.FieldTypes.C80_reported_partial",
    "Verif.Ide.FieldTypes.C80_silent",
    "Verif.Ide.FieldTypes.C80_generic",
    "Verif.Ide.FieldTypes.C80_store_fails",
    "Verif.Ide.FieldTypes.C80_generic_fails",
    "Verif.Ide.FieldTypes.C80_tuple_fails",
    "Verif.Ide.FieldTypes.C80_variant_fails"
   ],
   "note": "C80_true, C80_silent and C80_generic hold in general, apart from the unit type whose abilities C39 finds to be wrong. C80_reported_partial leaves out store, tuple fields, variants and types with arguments; there it is false (the _fails theorems)."
  },
  {
   "property": "C81",
   "status": "partial",
   "theorems": [
    "Verif.Ide.FieldTypes.C81_exact",
    "Verif.Ide.FieldTypes.C81_runs",
    "Verif.Ide.FieldTypes.C81_assists",
    "Verif.Ide.FieldTypes.C81_mutual_fails",
    "Verif.Ide.FieldTypes.C81_tuple_fails"
   ],
   "note": "C81_exact, C81_runs and C81_assists hold for all named fields. Cycles of several types and fields without names are not reported (the _fails theorems)."
  },
  {
   "property": "C82",
   "status": "proved",
   "theorems": [
    "Verif.Ide.Inlay.C82_range",
    "Verif.Ide.Inlay.C82_resolve",
    "Verif.Ide.Inlay.C82_param",
    "Verif.Ide.Inlay.C82_type",
    "Verif.Ide.Inlay.C82_type_shown",
    "Verif.Ide.Inlay.C82_exclusive"
   ],
   "note": "C82_range and C82_resolve hold for all trees; C82_param and C82_exclusive say exactly which hints there are, C82_type and C82_type_shown the same for types."
  },
  {
   "property": "C83",
   "status": "partial",
   "theorems": [
    "Verif.Ide.Complete.C83_import_fails",
    "Verif.Ide.Complete.C83_own_fails",
    "Verif.Ide.Complete.C83_walk",
    "Verif.Ide.Complete.C83_complete",
    "Verif.Ide.Complete.C83_sound",
    "Verif.Ide.Complete.C83_scope",
    "Verif.Ide.Complete.C83_once",
    "Verif.Ide.Complete.C83_reach",
    "Verif.Ide.Complete.C83_import_partial"
   ],
   "note": "C83_complete, C83_sound, C83_scope, C83_once and C83_reach hold without exception; what an import makes of the name is false when the name is in use (C83_import_fails, C83_own_fails)."
  },
  {
   "property": "C84",
   "status": "partial",
   "theorems": [
    "Verif.Ide.Runnables.C84_only_fails",
    "Verif.Ide.Runnables.C84_args_fails",
    "Verif.Ide.Runnables.C84_lenses",
    "Verif.Ide.Runnables.C84_order",
    "Verif.Ide.Runnables.C84_once",
    "Verif.Ide.Runnables.C84_selects",
    "Verif.Ide.Runnables.C84_runs",
    "Verif.Ide.Runnables.C84_only_partial",
    "Verif.Ide.Runnables.C84_args_partial"
   ],
   "note": "C84_lenses, C84_order, C84_once, C84_runs and C84_selects hold without exception; other tests are run too (C84_only_fails) and arguments that are there twice are dropped (C84_args_fails)."
  },
  {
   "property": "C85",
   "status": "partial",
   "theorems": [
    "Verif.Ide.CompleteFields.C85_literal",
    "Verif.Ide.CompleteFields.C85_path",
    "Verif.Ide.CompleteFields.C85_pattern",
    "Verif.Ide.CompleteFields.C85_missing",
    "Verif.Ide.CompleteFields.C85_current",
    "Verif.Ide.CompleteFields.C85_labels",
    "Verif.Ide.CompleteFields.C85_label_partial",
    "Verif.Ide.CompleteFields.C85_specs",
    "Verif.Ide.CompleteFields.C85_label_fails"
   ],
   "note": "C85_literal, C85_pattern, C85_missing, C85_current, C85_labels and C85_specs hold without exception; a label that is declared twice means nothing (C85_label_fails)."
  },
  {
   "property": "C86",
   "status": "proved",
   "theorems": [
    "Verif.Ide.Specs.C86_specs",
    "Verif.Ide.Specs.C86_lenses",
    "Verif.Ide.Specs.C86_goto",
    "Verif.Ide.Specs.C86_once"
   ],
   "note": "C86_goto and C86_once assume that a token, the keyword `spec`, is directly in every specification."
  },
  {
   "property": "C87",
   "status": "partial",
   "theorems": [
    "Verif.Ide.Specs.C87_proofs",
    "Verif.Ide.Specs.C87_all",
    "Verif.Ide.Specs.C87_found",
    "Verif.Ide.Specs.C87_names_partial",
    "Verif.Ide.Specs.C87_address_fails"
   ],
   "note": "C87_proofs, C87_all and C87_found hold without exception; the address is not passed on (C87_address_fails, C87_names_partial)."
  },
  {
   "property": "C88",
   "status": "partial",
   "theorems": [
    "Verif.Ide.VisFix.C88_keeps",
    "Verif.Ide.VisFix.C88_reported",
    "Verif.Ide.VisFix.C88_visibility",
    "Verif.Ide.VisFix.C88_lexes_partial",
    "Verif.Ide.VisFix.C88_joined_fails"
   ],
   "note": "C88_reported, C88_keeps and C88_visibility hold without exception; the text can be joined with the next word (C88_joined_fails, C88_lexes_partial)."
  },
  {
   "property": "C89",
   "status": "partial",
   "theorems": [
    "Verif.Ide.Related.C89_only",
    "Verif.Ide.Related.C89_all_partial",
    "Verif.Ide.Related.C89_same_partial",
    "Verif.Ide.Related.C89_cursor",
    "Verif.Ide.Related.C89_short_fails"
   ],
   "note": "C89_only holds without exception; C89_all_partial depends on the scope of the search (C62) and C89_same_partial leaves out names with two meanings (C89_short_fails)."
  },
  {
   "property": "C90",
   "status": "partial",
   "theorems": [
    "Verif.Ide.Docs.C90_attached",
    "Verif.Ide.Docs.C90_shown",
    "Verif.Ide.Docs.C90_undocumented",
    "Verif.Ide.Docs.C90_schema_fails"
   ],
   "note": "C90_attached, C90_shown and C90_undocumented hold without exception for the items that take comments; schemas and lemmas do not take any (C90_schema_fails)."
  },
  {
   "property": "C91",
   "status": "partial",
   "theorems": [
    "Verif.Ide.Unneeded.C91_turbofish",
    "Verif.Ide.Unneeded.C91_acquires",
    "Verif.Ide.Unneeded.C91_lexes_partial",
    "Verif.Ide.Unneeded.C91_space_fails"
   ],
   "note": "C91_turbofish and C91_acquires hold without exception for the text. That the call stays a call is false (C91_space_fails); without spaces the tokens are the same but for `::` (C91_lexes_partial), and that the parser then makes the same tree is not proved."
  },
  {
   "property": "C92",
   "status": "partial",
   "theorems": [
    "Verif.Ide.Shorthand.C92_literal",
    "Verif.Ide.Shorthand.C92_pattern",
    "Verif.Ide.Shorthand.C92_text",
    "Verif.Ide.Shorthand.C92_gives",
    "Verif.Ide.Shorthand.C92_binds",
    "Verif.Ide.Shorthand.C92_done",
    "Verif.Ide.Shorthand.C92_comment_fails"
   ],
   "note": "C92_literal, C92_pattern, C92_text, C92_gives and C92_binds hold without exception for names; a comment within the field is lost (C92_comment_fails). That every value written as its name is a plain path (NameExpr) is a hypothesis of C92_gives, not proved from the grammar."
  }
 ]
}