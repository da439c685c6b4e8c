'Verif.TextEdit.C01_apply_is_simultaneous' depends on axioms: [propext, Classical.choice, Quot.sound]
'Verif.TextEdit.C02_accepts_iff' depends on axioms: [propext, Classical.choice, Quot.sound]
'Verif.TextEdit.C02_order_irrelevant' depends on axioms: [propext, Classical.choice, Quot.sound]
'Verif.TextEdit.C02_insertions_at_one_offset_ordered' depends on axioms: [propext, Classical.choice, Quot.sound]
'Verif.TextEdit.C03_union_keeps_both' depends on axioms: [propext, Classical.choice, Quot.sound]
'Verif.TextEdit.C03_union_refusal' depends on axioms: [propext]
'Verif.TextEdit.C03_union_accepts' depends on axioms: [propext, Quot.sound]
'Verif.TextEdit.C03_union_symmetric_fails' depends on axioms: [propext, Quot.sound]
'Verif.TextEdit.C03_insert_source_edit' depends on axioms: [propext, Classical.choice, Quot.sound]
'Verif.TextEdit.C03_insert_source_edit_overlap_lost_fails' depends on axioms: [propext, Quot.sound]
'Verif.TextEdit.C04_offset_undefined_iff' depends on axioms: [propext, Quot.sound]
'Verif.TextEdit.C04_offset_splits' depends on axioms: [propext, Classical.choice, Quot.sound]
'Verif.TextEdit.C04_offset_monotone' depends on axioms: [propext, Quot.sound]
'Verif.TextEdit.C04_untouched_neighbours' depends on axioms: [propext, Classical.choice, Quot.sound]
'Verif.TextEdit.C05_builder_duplicate_fails' depends on axioms: [propext, Classical.choice, Quot.sound]
'Verif.TextEdit.C05_merge_duplicate_partial' depends on axioms: [propext, Quot.sound]
'Verif.LineEndings.C06_normalize' depends on axioms: [propext, Classical.choice, Quot.sound]
'Verif.LineEndings.C06_round_trip' depends on axioms: [propext, Classical.choice, Quot.sound]
'Verif.LineEndings.C06_no_crlf_left_fails' depends on axioms: [propext, Classical.choice, Quot.sound]
'Verif.LineEndings.C06_idempotent_partial' depends on axioms: [propext, Classical.choice, Quot.sound]
'Verif.LineEndings.C06_utf8_preserved' depends on axioms: [propext, Classical.choice, Quot.sound]
'Verif.Documents.C07_cached_index_transparent' depends on axioms: [propext, Classical.choice, Quot.sound]
'Verif.Documents.C07_whole_document' depends on axioms: [propext]
'Verif.Documents.C07_changes_applied' depends on axioms: [propext, Classical.choice, Quot.sound]
'Verif.Documents.C07_stale_index_fails' depends on axioms: [propext]
'Verif.Documents.C07_inside_surrogate_pair_panics_fails' depends on axioms: [propext]
'Verif.Documents.C07_no_panic' depends on axioms: [propext, Quot.sound]
'Verif.ClientEdits.C08_disjointness_exact' depends on axioms: [propext, Classical.choice, Quot.sound]
'Verif.ClientEdits.C08_order_irrelevant' depends on axioms: [propext, Classical.choice, Quot.sound]
'Verif.Documents.C09_round_trip' depends on axioms: [propext, Classical.choice, Quot.sound]
'Verif.Documents.C09_positions_distinct' depends on axioms: [propext, Classical.choice, Quot.sound]
'Verif.Documents.C09_monotone' depends on axioms: [propext, Classical.choice, Quot.sound]
'Verif.Documents.C10_past_end_of_line_fails' depends on axioms: [propext]
'Verif.Documents.C10_past_end_of_line_partial' depends on axioms: [propext, Classical.choice, Quot.sound]
'Verif.Documents.C10_defined_iff' depends on axioms: [propext, Classical.choice, Quot.sound]
'Verif.Workspace.C11_mirrors_editor' depends on axioms: [propext, Classical.choice, Quot.sound]
'Verif.Workspace.C11_no_crash_partial' depends on axioms: [propext, Classical.choice, Quot.sound]
'Verif.OpQueue.C12_single_flight_no_loss' depends on axioms: [propext, Quot.sound]
'Verif.OpQueue.C12_panics_iff' depends on axioms: [propext, Quot.sound]
'Verif.OpQueue.C12_main_loop' depends on axioms: [propext, Classical.choice, Quot.sound]
'Verif.OpQueue.C13_forced_reload_lost_fails' depends on axioms: [propext]
'Verif.OpQueue.C13_main_loop_fails' depends on axioms: [propext]
'Verif.OpQueue.C13_latest_request_honoured_partial' depends on axioms: [propext, Quot.sound]
'Verif.Server.C14_at_most_one_response' depends on axioms: [propext, Quot.sound]
'Verif.Server.C14_unique_ids' depends on axioms: [propext, Quot.sound]
'Verif.Server.C15_answered_or_in_flight_partial' depends on axioms: [propext, Classical.choice, Quot.sound]
'Verif.Server.C15_progress' depends on axioms: [propext, Quot.sound]
'Verif.Server.C15_worker_answer' depends on axioms: [propext, Quot.sound]
'Verif.Server.C15_worker_codes' depends on axioms: [propext]
'Verif.Server.C15_sync_cancelled_fails' depends on axioms: [propext]
'Verif.Server.C15_dispatch_exhaustive' depends on axioms: [propext, Classical.choice, Quot.sound]
'Verif.Server.C16_refused_partial' depends on axioms: [propext, Quot.sound]
'Verif.Server.C16_second_shutdown_fails' depends on axioms: [propext]
'Verif.Server.Loop.C17_status_exactly_on_change' depends on axioms: [propext, Classical.choice, Quot.sound]
'Verif.Server.Loop.C17_status_meaning' depends on axioms: [propext, Classical.choice, Quot.sound]
'Verif.Server.Loop.C18_failed_reload_keeps_workspace' depends on axioms: [propext, Classical.choice, Quot.sound]
'Verif.Server.Loop.C18_versions_increase' depends on axioms: [propext, Classical.choice, Quot.sound]
'Verif.Server.Outgoing.C19_responses_partial' depends on axioms: [propext, Quot.sound]
'Verif.Server.Outgoing.C19_panics_iff' depends on axioms: [propext, Classical.choice, Quot.sound]
'Verif.Server.Outgoing.C19_unknown_response_fails' does not depend on any axioms
'Verif.Workspace.C20_every_file_in_package_partial' depends on axioms: [propext, Classical.choice, Quot.sound]
'Verif.Workspace.C20_recreated_file_fails' depends on axioms: [propext]
'Verif.Workspace.C20_exactly_named_files' depends on axioms: [propext, Quot.sound]
'Verif.Workspace.C20_panics_iff' depends on axioms: [propext, Classical.choice, Quot.sound]
'Verif.Workspace.C20_process_panics_iff' depends on axioms: [propext, Classical.choice, Quot.sound]
'Verif.Workspace.C20_database_up_to_date' depends on axioms: [propext, Classical.choice, Quot.sound]
'Verif.Workspace.C20_deletion_fails' depends on axioms: [propext]
'Verif.Workspace.C20_close_unsaved_fails' depends on axioms: [propext]
'Verif.SpecFiles.C21_related_exactly' depends on axioms: [propext, Classical.choice, Quot.sound]
'Verif.SpecFiles.C21_symmetric' depends on axioms: [propext, Classical.choice, Quot.sound]
'Verif.SpecFiles.C21_not_move' depends on axioms: [propext, Classical.choice, Quot.sound]
'Verif.SpecFiles.C21_double_suffix_asymmetric' depends on axioms: [propext, Classical.choice, Quot.sound]
'Verif.Packages.C22_workspace_partial' depends on axioms: [propext, Classical.choice, Quot.sound]
'Verif.Packages.C22_collect_partial' depends on axioms: [propext, Quot.sound]
'Verif.Packages.C22_exactly_reachable' depends on axioms: [propext, Quot.sound]
'Verif.Packages.C22_same_name_fails' depends on axioms: [propext, Quot.sound]
'Verif.Packages.C23_loads_exactly_reachable' depends on axioms: [propext, Quot.sound]
'Verif.Packages.C23_workspace' depends on axioms: [propext, Quot.sound]
'Verif.Packages.C24_members_are_local_partial' depends on axioms: [propext, Quot.sound]
'Verif.Packages.C24_order_irrelevant_partial' depends on axioms: [propext, Quot.sound]
'Verif.Packages.C24_git_dependency_fails' depends on axioms: [propext, Quot.sound]
'Verif.Packages.C24_unresolved_member_fails' depends on axioms: [propext, Quot.sound]
'Verif.Lexer.C25_tokens_tile_text' depends on axioms: [propext, Classical.choice, Quot.sound]
'Verif.Lexer.C25_terminates' depends on axioms: [propext, Classical.choice, Quot.sound]
'Verif.Lexer.C25_no_panic_partial' depends on axioms: [propext, Classical.choice, Quot.sound]
'Verif.Lexer.C26_length_counts_characters_partial' depends on axioms: [propext, Classical.choice, Quot.sound]
'Verif.Lexer.C26_closed_iff_ascii_partial' depends on axioms: [propext, Classical.choice, Quot.sound]
'Verif.Lexer.C26_ascii_comment_exact_partial' depends on axioms: [propext, Classical.choice, Quot.sound]
'Verif.Lexer.C26_cut_short_fails' depends on axioms: [propext, Classical.choice, Quot.sound]
'Verif.Lexer.C26_panics_fails' depends on axioms: [propext, Classical.choice, Quot.sound]
'Verif.TokenSet.C27_contains_iff_mem' depends on axioms: [propext, Classical.choice, Quot.sound]
'Verif.TokenSet.C27_contains_iff_mem_small' depends on axioms: [propext, Classical.choice, Quot.sound]
'Verif.TokenSet.C27_kinds_lists_members' depends on axioms: [propext, Classical.choice, Quot.sound]
'Verif.TokenSet.C27_isEmpty_iff' depends on axioms: [propext, Classical.choice, Quot.sound]
'Verif.TokenSet.C27_large_kind_aliases_fails' depends on axioms: [propext, Quot.sound]
'Verif.Parser.C28_tree_reproduces_text' depends on axioms: [propext, Classical.choice, Quot.sound]
'Verif.Parser.C28_any_events' depends on axioms: [propext, Classical.choice, Quot.sound]
'Verif.Parser.C29_rollback_restores' depends on axioms: [propext, Classical.choice, Quot.sound]
'Verif.Parser.C29_completed_rollback_restores' depends on axioms: [propext, Classical.choice, Quot.sound]
'Verif.Parser.C29_alternatives_leave_no_trace' depends on axioms: [propext, Classical.choice, Quot.sound]
'Verif.Parser.C30_terminates' depends on axioms: [propext, Classical.choice, Quot.sound]
'Verif.Parser.C30_covers' depends on axioms: [propext, Classical.choice, Quot.sound]
'Verif.Parser.C31_module_path_fails' depends on axioms: [propext, Classical.choice, Quot.sound]
'Verif.Parser.C31_behavior_predicate_fails' depends on axioms: [propext, Classical.choice, Quot.sound]
'Verif.Parser.C31_apply_lemma_fails' depends on axioms: [propext, Classical.choice, Quot.sound]
'Verif.Parser.C31_include_fails' depends on axioms: [propext, Classical.choice, Quot.sound]
'Verif.Parser.C31_attribute_fails' depends on axioms: [propext, Classical.choice, Quot.sound]
'Verif.Parser.C31_type_argument_fails' depends on axioms: [propext, Classical.choice, Quot.sound]
'Verif.Parser.C31_name_pattern_fails' depends on axioms: [propext, Classical.choice, Quot.sound]
'Verif.Parser.C31_no_panic_partial' depends on axioms: [propext, Classical.choice, Quot.sound]
'Verif.Parser.C31_sink_never_panics_partial' depends on axioms: [propext, Classical.choice, Quot.sound]
'Verif.Comments.C32_longest_prefix' depends on axioms: [propext, Quot.sound]
'Verif.Comments.C32_documented_kind' depends on axioms: [propext, Classical.choice, Quot.sound]
'Verif.Comments.C32_prefix_of_text' depends on axioms: [propext, Quot.sound]
'Verif.Comments.C32_text_extraction' depends on axioms: [propext, Classical.choice, Quot.sound]
'Verif.Comments.C32_lexed_comments' depends on axioms: [propext, Classical.choice, Quot.sound]
'Verif.Types.C33_lookup_terminates' depends on axioms: [propext, Quot.sound]
'Verif.Types.C33_acyclic' depends on axioms: [propext, Quot.sound]
'Verif.Types.C33_unify' depends on axioms: [propext, Quot.sound]
'Verif.Types.C33_bind' depends on axioms: [propext, Quot.sound]
'Verif.Types.C34_question' depends on axioms: [propext]
'Verif.Types.C34_nested' depends on axioms: [propext]
'Verif.Types.C34_rollback_never_panics' depends on axioms: [propext]
'Verif.Types.C35_sequence_partial' depends on axioms: [propext, Classical.choice, Quot.sound]
'Verif.Types.C35_assign_partial' depends on axioms: [propext, Classical.choice, Quot.sound]
'Verif.Types.C35_occurs' depends on axioms: [propext, Classical.choice, Quot.sound]
'Verif.Types.C35_no_panic_partial' depends on axioms: [propext, Classical.choice, Quot.sound]
'Verif.Types.C35_unknown_fails' depends on axioms: [propext]
'Verif.Types.C35_cycle_fails' depends on axioms: [propext]
'Verif.Types.C36_lax_partial' depends on axioms: [propext, Classical.choice, Quot.sound]
'Verif.Types.C36_exact_partial' depends on axioms: [propext, Classical.choice, Quot.sound]
'Verif.Types.C36_range_fails' depends on axioms: [propext]
'Verif.Types.C36_arity_fails' depends on axioms: [propext]
'Verif.Types.C36_return_fails' depends on axioms: [propext]
'Verif.Types.C36_direction_fails' depends on axioms: [propext]
'Verif.Types.C36_question_partial' depends on axioms: [propext, Classical.choice, Quot.sound]
'Verif.Types.C37_exact' depends on axioms: [propext, Quot.sound]
'Verif.Types.C37_nothing_else' depends on axioms: [propext, Classical.choice, Quot.sound]
'Verif.Types.C37_depends_on_occurring' depends on axioms: [propext, Classical.choice, Quot.sound]
'Verif.Types.C37_identity' depends on axioms: [propext, Classical.choice, Quot.sound]
'Verif.Types.C37_compose' depends on axioms: [propext, Classical.choice, Quot.sound]
'Verif.Types.C37_lookup' depends on axioms: [propext, Quot.sound]
'Verif.Types.C38_autoborrow' depends on axioms: [propext]
'Verif.Types.C38_never_mutable' depends on axioms: [propext]
'Verif.Types.C39_argument_partial' depends on axioms: [propext, Classical.choice, Quot.sound]
'Verif.Types.C39_spec_argument' depends on axioms: [propext, Classical.choice, Quot.sound]
'Verif.Types.C39_complete_partial' depends on axioms: [propext]
'Verif.Types.C39_exact_partial' depends on axioms: [propext, Classical.choice, Quot.sound]
'Verif.Types.C39_unit_fails' depends on axioms: [propext]
'Verif.Types.C39_vector_key_fails' depends on axioms: [propext]
'Verif.Types.C39_generic_struct_fails' depends on axioms: [propext]
'Verif.Nameres.C40_short_partial' depends on axioms: [propext, Classical.choice, Quot.sound]
'Verif.Nameres.C40_equal_partial' depends on axioms: [propext, Classical.choice, Quot.sound]
'Verif.Nameres.C40_named_partial' depends on axioms: [propext, Classical.choice, Quot.sound]
'Verif.Nameres.C40_equivalence' depends on axioms: [propext, Classical.choice, Quot.sound]
'Verif.Nameres.C40_hex_sound' depends on axioms: [propext, Classical.choice, Quot.sound]
'Verif.Nameres.C40_case_fails' depends on axioms: [propext, Classical.choice, Quot.sound]
'Verif.Nameres.C40_decimal_fails' depends on axioms: [propext, Classical.choice, Quot.sound]
'Verif.Nameres.C41_modifier' depends on axioms: [propext, Quot.sound]
'Verif.Nameres.C41_rule' depends on axioms: [propext, Classical.choice, Quot.sound]
'Verif.Nameres.C41_everything' depends on axioms: [propext, Classical.choice, Quot.sound]
'Verif.Nameres.C41_specification' depends on axioms: [propext, Classical.choice, Quot.sound]
'Verif.Nameres.C41_builtin' depends on axioms: [propext, Classical.choice, Quot.sound]
'Verif.Nameres.C41_use' depends on axioms: [propext, Classical.choice, Quot.sound]
'Verif.Nameres.C41_marked_partial' depends on axioms: [propext, Classical.choice, Quot.sound]
'Verif.Nameres.C41_use_fails' depends on axioms: [propext, Classical.choice, Quot.sound]
'Verif.Nameres.C42_marked' depends on axioms: [propext, Classical.choice, Quot.sound]
'Verif.Nameres.C42_some' depends on axioms: [propext, Classical.choice, Quot.sound]
'Verif.Nameres.C42_nearest_partial' depends on axioms: [propext, Classical.choice, Quot.sound]
'Verif.Nameres.C42_recorded' depends on axioms: [propext, Classical.choice, Quot.sound]
'Verif.Nameres.C42_collision_fails' depends on axioms: [propext, Classical.choice, Quot.sound]
'Verif.Nameres.C43_latest' depends on axioms: [propext, Quot.sound]
'Verif.Nameres.C43_single' depends on axioms: [propext, Quot.sound]
'Verif.Nameres.C43_order' depends on axioms: [propext, Classical.choice, Quot.sound]
'Verif.Nameres.C43_not_later' depends on axioms: [propext, Quot.sound]
'Verif.Nameres.C43_bindings' depends on axioms: [propext, Quot.sound]
'Verif.Ide.Highlights.C44_tiles' depends on axioms: [propext, Classical.choice, Quot.sound]
'Verif.Ide.Highlights.C44_sorted' depends on axioms: [propext, Classical.choice, Quot.sound]
'Verif.Ide.Highlights.C44_overlap_fails' depends on axioms: [propext, Quot.sound]
'Verif.SemTokens.C45_decode' depends on axioms: [propext, Classical.choice, Quot.sound]
'Verif.SemTokens.C45_out_of_order_overflows' depends on axioms: [propext, Classical.choice, Quot.sound]
'Verif.SemTokens.C46_delta_reconstructs' depends on axioms: [propext, Quot.sound]
'Verif.SemTokens.C46_no_edit_iff' depends on axioms: [propext, Quot.sound]
'Verif.Completion.C47_sort_text_order' depends on axioms: [propext, Classical.choice, Quot.sound]
'Verif.Completion.C47_items' depends on axioms: [propext, Classical.choice, Quot.sound]
'Verif.Completion.C47_ranking' depends on axioms: [propext, Classical.choice, Quot.sound]
'Verif.TextEdit.TreeDiff.C48_partial' depends on axioms: [propext, Classical.choice, Quot.sound]
'Verif.TextEdit.TreeDiff.C48_empty_fails' depends on axioms: [propext, Classical.choice, Quot.sound]
'Verif.Ide.Extend.C49_contains' depends on axioms: [propext, Classical.choice, Quot.sound]
'Verif.Ide.Extend.C49_progress' depends on axioms: [propext, Classical.choice, Quot.sound]
'Verif.Ide.Extend.C49_selections' depends on axioms: [propext, Classical.choice, Quot.sound]
'Verif.Ide.Extend.C49_whole_partial' depends on axioms: [propext, Classical.choice, Quot.sound]
'Verif.Ide.Extend.C49_text' depends on axioms: [propext, Classical.choice, Quot.sound]
'Verif.Ide.Extend.C49_skips_nothing' depends on axioms: [propext, Classical.choice, Quot.sound]
'Verif.Ide.Extend.C49_answer' depends on axioms: [propext, Quot.sound]
'Verif.Ide.Extend.C49_unfinished_fails' depends on axioms: [propext, Classical.choice, Quot.sound]
'Verif.Ide.Assists.C50_nest' depends on axioms: [propext, Classical.choice, Quot.sound]
'Verif.Ide.Assists.C50_order' depends on axioms: [propext]
'Verif.Ide.Assists.C50_name' depends on axioms: [propext, Classical.choice, Quot.sound]
'Verif.Ide.Assists.C50_protocol_partial' depends on axioms: [propext, Classical.choice, Quot.sound]
'Verif.Ide.Assists.C50_generate_fails' depends on axioms: [propext, Classical.choice, Quot.sound]
'Verif.Ide.Assists.C50_only_partial' depends on axioms: [propext, Classical.choice, Quot.sound]
'Verif.Ide.Assists.C50_only_fails' depends on axioms: [propext, Classical.choice, Quot.sound]
'Verif.Ide.C51_count' depends on axioms: [propext, Classical.choice, Quot.sound]
'Verif.Ide.C51_monotone' depends on axioms: [propext, Classical.choice, Quot.sound]
'Verif.Ide.C51_argument' depends on axioms: [propext, Classical.choice, Quot.sound]
'Verif.Ide.C51_comma' depends on axioms: [propext, Classical.choice, Quot.sound]
'Verif.Ide.C51_token' depends on axioms: [propext, Classical.choice, Quot.sound]
'Verif.Ide.C51_owner' depends on axioms: [propext, Quot.sound]
'Verif.Ide.C51_signature' depends on axioms: [propext, Classical.choice, Quot.sound]
'Verif.Ide.C51_completion_fails' depends on axioms: [propext]
'Verif.Nameres.C52_found' depends on axioms: [propext, Quot.sound]
'Verif.Nameres.C52_innermost' depends on axioms: [propext, Classical.choice, Quot.sound]
'Verif.Nameres.C52_goto_partial' depends on axioms: [propext, Quot.sound]
'Verif.Nameres.C52_shadow_fails' depends on axioms: [propext, Classical.choice, Quot.sound]
'Verif.ClientEdits.C53_split_same_effect' depends on axioms: [propext, Classical.choice, Quot.sound]
'Verif.ClientEdits.C53_panics_iff' depends on axioms: [propext, Classical.choice, Quot.sound]
'Verif.ClientEdits.C53_touching_edit_fails' does not depend on any axioms
'Verif.Server.Loop.C54_quiescent_means_settled' depends on axioms: [propext, Classical.choice, Quot.sound]
'Verif.Server.Loop.C55_changes_are_announced' depends on axioms: [propext, Classical.choice, Quot.sound]
'Verif.Server.Loop.C55_becoming_ready_is_announced' depends on axioms: [propext, Classical.choice, Quot.sound]
'Verif.Lexer.C56_kinds_agree_with_text' depends on axioms: [propext, Classical.choice, Quot.sound]
'Verif.Lexer.C57_accepts_exactly_identifiers' depends on axioms: [propext, Classical.choice, Quot.sound]
'Verif.Lexer.C57_accepted_form' depends on axioms: [propext, Classical.choice, Quot.sound]
'Verif.Comments.C58_text_without_quotes' depends on axioms: [propext, Classical.choice, Quot.sound]
'Verif.Comments.C58_lexed_strings' depends on axioms: [propext, Classical.choice, Quot.sound]
'Verif.Nameres.C59_innermost' depends on axioms: [propext, Quot.sound]
'Verif.Nameres.C59_scopes' depends on axioms: [propext, Quot.sound]
'Verif.Nameres.C59_asked' depends on axioms: [propext, Quot.sound]
'Verif.Nameres.C59_brings' depends on axioms: [propext, Quot.sound]
'Verif.Nameres.C59_local' depends on axioms: [propext, Quot.sound]
'Verif.Nameres.C59_for_fails' depends on axioms: [propext, Classical.choice, Quot.sound]
'Verif.Ide.Assists.C60_id' depends on axioms: [propext, Classical.choice, Quot.sound]
'Verif.Ide.Assists.C60_offered' depends on axioms: [propext, Classical.choice, Quot.sound]
'Verif.Ide.Assists.C60_lazy' depends on axioms: [propext, Classical.choice, Quot.sound]
'Verif.Ide.Assists.C60_eager' depends on axioms: [propext, Classical.choice, Quot.sound]
'Verif.Ide.Assists.C60_resolve_partial' depends on axioms: [propext, Classical.choice, Quot.sound]
'Verif.Ide.Assists.C60_stale' depends on axioms: [propext, Classical.choice, Quot.sound]
'Verif.Ide.Assists.C60_answer' depends on axioms: [propext, Classical.choice, Quot.sound]
'Verif.Ide.Assists.C60_fallible_fails' depends on axioms: [propext, Classical.choice, Quot.sound]
'Verif.Ide.Assists.C60_other_file_fails' depends on axioms: [propext, Classical.choice, Quot.sound]
'Verif.Ide.Signature.C61_texts' depends on axioms: [propext, Quot.sound]
'Verif.Ide.Signature.C61_offsets_partial' depends on axioms: [propext, Quot.sound]
'Verif.Ide.Signature.C61_empty_fails' depends on axioms: [propext, Classical.choice, Quot.sound]
'Verif.Ide.Signature.C61_units_fails' depends on axioms: [propext, Classical.choice, Quot.sound]
'Verif.Ide.Signature.C61_marked_partial' depends on axioms: [propext, Quot.sound]
'Verif.Ide.Signature.C61_active_fails' depends on axioms: [propext, Classical.choice, Quot.sound]
'Verif.Ide.Usages.C62_any_sound' depends on axioms: [propext, Classical.choice, Quot.sound]
'Verif.Ide.Usages.C62_any_partial' depends on axioms: [propext, Classical.choice, Quot.sound]
'Verif.Ide.Usages.C62_whole_file' depends on axioms: [propext, Quot.sound]
'Verif.Ide.Usages.C62_local_partial' depends on axioms: [propext, Classical.choice, Quot.sound]
'Verif.Ide.Usages.C62_one_file' depends on axioms: [propext, Classical.choice, Quot.sound]
'Verif.Ide.Usages.C62_proof_fails' depends on axioms: [propext, Classical.choice, Quot.sound]
'Verif.Ide.Usages.C62_loop_fails' depends on axioms: [propext, Classical.choice, Quot.sound]
'Verif.Ide.Usages.C62_variant_fails' depends on axioms: [propext, Classical.choice, Quot.sound]
'Verif.Ide.Usages.C62_sound' depends on axioms: [propext, Classical.choice, Quot.sound]
'Verif.Ide.Usages.C62_complete_partial' depends on axioms: [propext, Classical.choice, Quot.sound]
'Verif.Ide.Usages.C62_once' depends on axioms: [propext, Classical.choice, Quot.sound]
'Verif.Ide.Usages.C62_text_partial' depends on axioms: [propext, Classical.choice, Quot.sound]
'Verif.Ide.Rename.C63_shorthand_fails' depends on axioms: [propext, Classical.choice, Quot.sound]
'Verif.Ide.Rename.C63_capture_fails' depends on axioms: [propext, Classical.choice, Quot.sound]
'Verif.Ide.Rename.C63_label_fails' depends on axioms: [propext, Classical.choice, Quot.sound]
'Verif.Ide.Rename.C63_prepare_fails' depends on axioms: [propext, Classical.choice, Quot.sound]
'Verif.Ide.Rename.C63_local_partial' depends on axioms: [propext, Classical.choice, Quot.sound]
'Verif.Ide.Rename.C63_literal_shorthand' depends on axioms: [propext, Classical.choice, Quot.sound]
'Verif.Ide.Rename.C63_literal_full' depends on axioms: [propext, Classical.choice, Quot.sound]
'Verif.Ide.Rename.C63_pattern_shorthand' depends on axioms: [propext, Classical.choice, Quot.sound]
'Verif.Ide.Rename.C63_pattern_full' depends on axioms: [propext, Classical.choice, Quot.sound]
'Verif.Ide.Rename.C63_accepted' depends on axioms: [propext, Classical.choice, Quot.sound]
'Verif.Ide.Rename.C63_refused' depends on axioms: [propext, Classical.choice, Quot.sound]
'Verif.Ide.Rename.C63_accepts' depends on axioms: [propext, Classical.choice, Quot.sound]
'Verif.Ide.Rename.C63_definition' depends on axioms: [propext, Classical.choice, Quot.sound]
'Verif.Ide.Rename.C63_definition_refers' depends on axioms: [propext, Classical.choice, Quot.sound]
'Verif.Ide.Rename.C63_prepare' depends on axioms: [propext, Quot.sound]
'Verif.Ide.Rename.C63_edits_partial' depends on axioms: [propext, Classical.choice, Quot.sound]
'Verif.Ide.Rename.C63_tree_partial' depends on axioms: [propext, Classical.choice, Quot.sound]
'Verif.Parser.C64_body_partial' depends on axioms: [propext, Classical.choice, Quot.sound]
'Verif.Parser.C64_expression_partial' depends on axioms: [propext, Classical.choice, Quot.sound]
'Verif.Parser.C64_file_partial' depends on axioms: [propext, Classical.choice, Quot.sound]
'Verif.Parser.C64_unique_partial' depends on axioms: [propext, Classical.choice, Quot.sound]
'Verif.Parser.C64_two_operators' depends on axioms: [propext, Classical.choice, Quot.sound]
'Verif.Parser.C64_every_expression' depends on axioms: [propext, Classical.choice, Quot.sound]
'Verif.Parser.C64_return_fails' depends on axioms: [propext, Classical.choice, Quot.sound]
'Verif.Parser.C64_range_fails' depends on axioms: [propext, Classical.choice, Quot.sound]
'Verif.Parser.C64_comparison_fails' depends on axioms: [propext, Classical.choice, Quot.sound]
'Verif.Ide.C65_factory_partial' depends on axioms: [propext, Classical.choice, Quot.sound]
'Verif.Ide.C65_index_fails' depends on axioms: [propext, Classical.choice, Quot.sound]
'Verif.Ide.C65_compound_fails' depends on axioms: [propext]
'Verif.Ide.C65_word_fails' depends on axioms: [propext, Classical.choice, Quot.sound]
'Verif.Ide.C65_method' depends on axioms: [propext, Classical.choice, Quot.sound]
'Verif.Ide.C65_compound' depends on axioms: [propext, Classical.choice, Quot.sound]
'Verif.Ide.C65_compound_operator' depends on axioms: [propext, Quot.sound]
'Verif.Ide.C65_cast' depends on axioms: [propext, Classical.choice, Quot.sound]
'Verif.Ide.C65_cast_fails' depends on axioms: [propext, Classical.choice, Quot.sound]
'Verif.Ide.C65_index_partial' depends on axioms: [propext, Classical.choice, Quot.sound]
'Verif.Ide.C65_resource' depends on axioms: [propext, Classical.choice, Quot.sound]
'Verif.Ide.C65_receiver' depends on axioms: [propext]
'Verif.Ide.C65_index_base' depends on axioms: [propext]
'Verif.Ide.C65_resource_shape' depends on axioms: [propext]
'Verif.Ide.C65_file_partial' depends on axioms: [propext, Classical.choice, Quot.sound]
'Verif.Ide.C66_enum_fails' depends on axioms: [propext, Classical.choice, Quot.sound]
'Verif.Ide.C66_variant_fails' depends on axioms: [propext, Classical.choice, Quot.sound]
'Verif.Ide.C66_friend_fails' depends on axioms: [propext, Classical.choice, Quot.sound]
'Verif.Ide.C66_spec_module_fails' depends on axioms: [propext, Classical.choice, Quot.sound]
'Verif.Ide.C66_imports' depends on axioms: [propext, Classical.choice, Quot.sound]
'Verif.Ide.C66_unused_partial' depends on axioms: [propext, Classical.choice, Quot.sound]
'Verif.Ide.C66_test_only_partial' depends on axioms: [propext, Classical.choice, Quot.sound]
'Verif.Ide.C66_unmentioned' depends on axioms: [propext, Classical.choice, Quot.sound]
'Verif.Ide.C66_report' depends on axioms: [propext, Classical.choice, Quot.sound]
'Verif.Ide.C66_test_report' depends on axioms: [propext, Classical.choice, Quot.sound]
'Verif.Ide.C66_unfinished' depends on axioms: [propext, Classical.choice, Quot.sound]
'Verif.Ide.C67_named_fails' depends on axioms: [propext, Classical.choice, Quot.sound]
'Verif.Ide.C67_use_fails' depends on axioms: [propext, Classical.choice, Quot.sound]
'Verif.Ide.C67_short_variant_fails' depends on axioms: [propext, Classical.choice, Quot.sound]
'Verif.Nameres.Full.C67_module' depends on axioms: [propext, Classical.choice, Quot.sound]
'Verif.Nameres.Full.C67_value' depends on axioms: [propext, Classical.choice, Quot.sound]
'Verif.Nameres.Full.C67_named_partial' depends on axioms: [propext, Classical.choice, Quot.sound]
'Verif.Nameres.Full.C67_use_partial' depends on axioms: [propext, Classical.choice, Quot.sound]
'Verif.Nameres.Full.C67_group_partial' depends on axioms: [propext, Classical.choice, Quot.sound]
'Verif.Nameres.Full.C67_variant' depends on axioms: [propext, Classical.choice, Quot.sound]
'Verif.Nameres.Full.C67_namespace' depends on axioms: [propext, Quot.sound]
'Verif.Nameres.Full.C67_called' depends on axioms: [propext, Classical.choice, Quot.sound]
'Verif.Nameres.Full.C67_expected' depends on axioms: [propext, Quot.sound]
'Verif.Nameres.Full.C67_plain_sound' depends on axioms: [propext, Classical.choice, Quot.sound]
'Verif.Nameres.Full.C67_plain' depends on axioms: [propext, Classical.choice, Quot.sound]
'Verif.Nameres.Full.C67_short' depends on axioms: [propext, Classical.choice, Quot.sound]
'Verif.Nameres.Full.C67_short_variant_partial' depends on axioms: [propext, Classical.choice, Quot.sound]
'Verif.Editor.C68_all' depends on axioms: [propext, Classical.choice, Quot.sound]
'Verif.Editor.C68_twice_fails' depends on axioms: [propext, Classical.choice, Quot.sound]
'Verif.Ide.Organize.C68_organize_first_fails' depends on axioms: [propext, Classical.choice, Quot.sound]
'Verif.Ide.Organize.C68_organize_last_fails' depends on axioms: [propext, Classical.choice, Quot.sound]
'Verif.Ide.Organize.C68_organize_mixed_fails' depends on axioms: [propext, Classical.choice, Quot.sound]
'Verif.Ide.Organize.C68_organize_tests_fails' depends on axioms: [propext, Classical.choice, Quot.sound]
'Verif.Ide.Organize.C68_organize_group_fails' depends on axioms: [propext, Classical.choice, Quot.sound]
'Verif.Ide.Organize.C68_organize_partial' depends on axioms: [propext, Classical.choice, Quot.sound]
'Verif.Ide.Organize.C68_gone' depends on axioms: [propext, Classical.choice, Quot.sound]
'Verif.Ide.Organize.C68_stays' depends on axioms: [propext, Classical.choice, Quot.sound]
'Verif.Ide.Organize.C68_one' depends on axioms: [propext, Classical.choice, Quot.sound]
'Verif.Ide.Organize.C68_deletes' depends on axioms: [propext, Classical.choice, Quot.sound]
'Verif.Ide.Organize.C68_item' depends on axioms: [propext, Classical.choice, Quot.sound]
'Verif.Ide.Organize.C68_group_partial' depends on axioms: [propext, Classical.choice, Quot.sound]
'Verif.Ide.Organize.C68_first_two_fails' depends on axioms: [propext, Classical.choice, Quot.sound]
'Verif.Ide.Organize.C68_last_two_fails' depends on axioms: [propext, Classical.choice, Quot.sound]
'Verif.Nameres.AutoImport.C69_decimal_fails' depends on axioms: [propext, Classical.choice, Quot.sound]
'Verif.Nameres.AutoImport.C69_word_fails' depends on axioms: [propext, Classical.choice, Quot.sound]
'Verif.Nameres.AutoImport.C69_private_fails' depends on axioms: [propext, Classical.choice, Quot.sound]
'Verif.Nameres.AutoImport.C69_comment_fails' depends on axioms: [propext, Classical.choice, Quot.sound]
'Verif.Nameres.AutoImport.C69_offered' depends on axioms: [propext, Classical.choice, Quot.sound]
'Verif.Nameres.AutoImport.C69_limit' depends on axioms: [propext, Classical.choice, Quot.sound]
'Verif.Nameres.AutoImport.C69_qualified' depends on axioms: [propext, Quot.sound]
'Verif.Nameres.AutoImport.C69_titles' depends on axioms: [propext, Classical.choice, Quot.sound]
'Verif.Nameres.AutoImport.C69_indent' depends on axioms: [propext, Classical.choice, Quot.sound]
'Verif.Nameres.AutoImport.C69_new_partial' depends on axioms: [propext, Classical.choice, Quot.sound]
'Verif.Nameres.AutoImport.C69_item_partial' depends on axioms: [propext, Classical.choice, Quot.sound]
'Verif.Nameres.AutoImport.C69_module' depends on axioms: [propext, Classical.choice, Quot.sound]
'Verif.Nameres.AutoImport.C69_group' depends on axioms: [propext, Classical.choice, Quot.sound]
'Verif.Nameres.AutoImport.C69_group_partial' depends on axioms: [propext, Classical.choice, Quot.sound]
'Verif.Nameres.AutoImport.C69_pair_partial' depends on axioms: [propext, Classical.choice, Quot.sound]
'Verif.Nameres.AutoImport.C69_where_partial' depends on axioms: [propext, Classical.choice, Quot.sound]
'Verif.Outline.C70_tree' depends on axioms: [propext, Classical.choice, Quot.sound]
'Verif.Outline.C70_list' depends on axioms: [propext, Classical.choice, Quot.sound]
'Verif.Outline.C70_ranges' depends on axioms: [propext, Classical.choice, Quot.sound]
'Verif.Syntax.C72_literal_pat_fails' depends on axioms: [propext, Classical.choice, Quot.sound]
'Verif.Syntax.C72_required_partial' depends on axioms: [propext, Classical.choice, Quot.sound]
'Verif.Syntax.C72_names' depends on axioms: [propext, Classical.choice, Quot.sound]
'Verif.Symbols.C71_index' depends on axioms: [propext, Classical.choice, Quot.sound]
'Verif.Symbols.C71_answers' depends on axioms: [propext, Classical.choice, Quot.sound]
'Verif.Symbols.C71_upper_fails' depends on axioms: [propext, Classical.choice, Quot.sound]
'Verif.Symbols.C71_limit_fails' depends on axioms: [propext, Classical.choice, Quot.sound]
'Verif.Symbols.C71_container_fails' depends on axioms: [propext, Classical.choice, Quot.sound]
'Verif.Symbols.C71_search' depends on axioms: [propext, Classical.choice, Quot.sound]
'Verif.Ide.Unused.C73_panic' depends on axioms: [propext, Classical.choice, Quot.sound]
'Verif.Ide.Unused.C73_reported' depends on axioms: [propext, Classical.choice, Quot.sound]
'Verif.Ide.Unused.C73_no_panic' depends on axioms: [propext, Classical.choice, Quot.sound]
'Verif.Ide.Unused.C73_unused' depends on axioms: [propext, Classical.choice, Quot.sound]
'Verif.Ide.Unused.C73_used_partial' depends on axioms: [propext, Classical.choice, Quot.sound]
'Verif.Ide.Unused.C73_scopes_partial' depends on axioms: [propext, Classical.choice, Quot.sound]
'Verif.Ide.Unused.C73_loop_fails' depends on axioms: [propext, Classical.choice, Quot.sound]
'Verif.Ide.Unused.C73_proof_fails' depends on axioms: [propext, Classical.choice, Quot.sound]
'Verif.Ide.Unused.C73_shorthand_fails' depends on axioms: [propext, Classical.choice, Quot.sound]
'Verif.Ide.Unused.C73_capture_fails' depends on axioms: [propext, Classical.choice, Quot.sound]
'Verif.Ide.Unused.C73_fix_partial' depends on axioms: [propext, Classical.choice, Quot.sound]
'Verif.Ide.Unused.C73_meaning_partial' depends on axioms: [propext, Classical.choice, Quot.sound]
'Verif.Ide.Counts.C74_arguments' depends on axioms: [propext, Classical.choice, Quot.sound]
'Verif.Ide.Counts.C74_unknown' depends on axioms: [propext, Classical.choice, Quot.sound]
'Verif.Ide.Counts.C74_panic' depends on axioms: [propext, Classical.choice, Quot.sound]
'Verif.Ide.Counts.C74_vector' depends on axioms: [propext, Classical.choice, Quot.sound]
'Verif.Ide.Counts.C74_types_partial' depends on axioms: [propext, Classical.choice, Quot.sound]
'Verif.Ide.Counts.C74_bare' depends on axioms: [propext, Classical.choice, Quot.sound]
'Verif.Ide.Counts.C74_tuple_fails' depends on axioms: [propext, Classical.choice, Quot.sound]
'Verif.Ide.Counts.C74_repeated_fails' depends on axioms: [propext, Classical.choice, Quot.sound]
'Verif.Ide.Counts.C74_enum_fails' depends on axioms: [propext, Classical.choice, Quot.sound]
'Verif.Ide.Counts.C74_unpack_fails' depends on axioms: [propext, Classical.choice, Quot.sound]
'Verif.Ide.Counts.C74_literal' depends on axioms: [propext, Classical.choice, Quot.sound]
'Verif.Ide.Counts.C74_pattern' depends on axioms: [propext, Classical.choice, Quot.sound]
'Verif.Ide.Counts.C74_unresolved' depends on axioms: [propext, Classical.choice, Quot.sound]
'Verif.Ide.Counts.C74_tuple_partial' depends on axioms: [propext, Classical.choice, Quot.sound]
'Verif.Ide.TypeErrors.C75_real' depends on axioms: [propext, Quot.sound]
'Verif.Ide.TypeErrors.C75_covered_partial' depends on axioms: [propext, Quot.sound]
'Verif.Ide.TypeErrors.C75_innermost_partial' depends on axioms: [propext, Quot.sound]
'Verif.Ide.TypeErrors.C75_exact_partial' depends on axioms: [propext, Quot.sound]
'Verif.Ide.TypeErrors.C75_ranges' depends on axioms: [propext, Quot.sound]
'Verif.Ide.TypeErrors.C75_order' depends on axioms: [propext, Quot.sound]
'Verif.Ide.TypeErrors.C75_nested_fails' does not depend on any axioms
'Verif.Ide.TypeErrors.C75_silent_fails' does not depend on any axioms
'Verif.Ide.Simplify.C76_compound' depends on axioms: [propext, Quot.sound]
'Verif.Ide.Simplify.C76_operators' depends on axioms: [propext]
'Verif.Ide.Simplify.C76_calls' depends on axioms: [propext, Quot.sound]
'Verif.Ide.Simplify.C76_index_partial' depends on axioms: [propext, Classical.choice, Quot.sound]
'Verif.Ide.Simplify.C76_method' depends on axioms: [propext, Classical.choice, Quot.sound]
'Verif.Ide.Simplify.C76_cast_partial' depends on axioms: [propext]
'Verif.Ide.Simplify.C76_resource_partial' depends on axioms: [propext, Classical.choice, Quot.sound]
'Verif.Ide.Simplify.C76_reads_partial' depends on axioms: [propext, Classical.choice, Quot.sound]
'Verif.Ide.Simplify.C76_index_fails' depends on axioms: [propext, Classical.choice, Quot.sound]
'Verif.Ide.Simplify.C76_cast_fails' depends on axioms: [propext, Classical.choice, Quot.sound]
'Verif.Ide.Simplify.C76_resource_fails' depends on axioms: [propext, Classical.choice, Quot.sound]
'Verif.Ide.Simplify.C76_twice_fails' depends on axioms: [propext]
'Verif.Ide.Simplify.C76_offer_fails' depends on axioms: [propext]
'Verif.Types.Render.C77_alike_partial' depends on axioms: [propext, Classical.choice, Quot.sound]
'Verif.Types.Render.C77_silent_partial' depends on axioms: [propext, Classical.choice, Quot.sound]
'Verif.Types.Render.C77_message_partial' depends on axioms: [propext, Classical.choice, Quot.sound]
'Verif.Types.Render.C77_hint_partial' depends on axioms: [propext, Classical.choice, Quot.sound]
'Verif.Types.Render.C77_param_fails' depends on axioms: [propext, Classical.choice, Quot.sound]
'Verif.Types.Render.C77_packages_fails' depends on axioms: [propext, Classical.choice, Quot.sound]
'Verif.Types.Render.C77_hint_fails' depends on axioms: [propext, Classical.choice, Quot.sound]
'Verif.Nameres.Locs.C78_sound' depends on axioms: [propext, Quot.sound]
'Verif.Nameres.Locs.C78_none' depends on axioms: [propext, Classical.choice, Quot.sound]
'Verif.Nameres.Locs.C78_different' depends on axioms: [propext, Classical.choice, Quot.sound]
'Verif.Nameres.Locs.C78_back_partial' depends on axioms: [propext, Classical.choice, Quot.sound]
'Verif.Nameres.Locs.C78_outermost' depends on axioms: [propext, Classical.choice, Quot.sound]
'Verif.Nameres.Locs.C78_scope_partial' depends on axioms: [propext, Classical.choice, Quot.sound]
'Verif.Nameres.Locs.C78_empty_fails' depends on axioms: [propext, Classical.choice, Quot.sound]
'Verif.Ide.Unresolved.C79_primitive_fails' depends on axioms: [propext, Classical.choice, Quot.sound]
'Verif.Ide.Unresolved.C79_update_fails' depends on axioms: [propext, Classical.choice, Quot.sound]
'Verif.Ide.Unresolved.C79_index_fails' depends on axioms: [propext, Classical.choice, Quot.sound]
'Verif.Ide.Unresolved.C79_pattern_fails' depends on axioms: [propext, Classical.choice, Quot.sound]
'Verif.Ide.Unresolved.C79_label_fails' depends on axioms: [propext, Classical.choice, Quot.sound]
'Verif.Ide.Unresolved.C79_variable_fails' depends on axioms: [propext, Classical.choice, Quot.sound]
'Verif.Ide.Unresolved.C79_true' depends on axioms: [propext, Classical.choice, Quot.sound]
'Verif.Ide.Unresolved.C79_first' depends on axioms: [propext, Classical.choice, Quot.sound]
'Verif.Ide.Unresolved.C79_exempt' depends on axioms: [propext, Classical.choice, Quot.sound]
'Verif.Ide.Unresolved.C79_silent_partial' depends on axioms: [propext, Classical.choice, Quot.sound]
'Verif.Ide.Unresolved.C79_group' depends on axioms: [propext, Classical.choice, Quot.sound]
'Verif.Ide.Unresolved.C79_members' depends on axioms: [propext, Classical.choice, Quot.sound]
'Verif.Ide.Unresolved.C79_unknown' depends on axioms: [propext, Classical.choice, Quot.sound]
'Verif.Ide.Unresolved.C79_message' depends on axioms: [propext, Classical.choice, Quot.sound]
'Verif.Ide.Unresolved.C79_once' depends on axioms: [propext, Classical.choice, Quot.sound]
'Verif.Ide.FieldTypes.C80_types' depends on axioms: [propext, Classical.choice, Quot.sound]
'Verif.Ide.FieldTypes.C80_true' depends on axioms: [propext, Classical.choice, Quot.sound]
'Verif.Ide.FieldTypes.C80_reported_partial' depends on axioms: [propext, Classical.choice, Quot.sound]
'Verif.Ide.FieldTypes.C80_silent' depends on axioms: [propext, Classical.choice, Quot.sound]
'Verif.Ide.FieldTypes.C80_generic' depends on axioms: [propext, Classical.choice, Quot.sound]
'Verif.Ide.FieldTypes.C80_store_fails' depends on axioms: [propext, Classical.choice, Quot.sound]
'Verif.Ide.FieldTypes.C80_generic_fails' depends on axioms: [propext, Classical.choice, Quot.sound]
'Verif.Ide.FieldTypes.C80_tuple_fails' depends on axioms: [propext, Classical.choice, Quot.sound]
'Verif.Ide.FieldTypes.C80_variant_fails' depends on axioms: [propext, Classical.choice, Quot.sound]
'Verif.Ide.FieldTypes.C81_exact' depends on axioms: [propext, Classical.choice, Quot.sound]
'Verif.Ide.FieldTypes.C81_runs' depends on axioms: [propext, Classical.choice, Quot.sound]
'Verif.Ide.FieldTypes.C81_assists' depends on axioms: [propext, Classical.choice, Quot.sound]
'Verif.Ide.FieldTypes.C81_mutual_fails' depends on axioms: [propext, Classical.choice, Quot.sound]
'Verif.Ide.FieldTypes.C81_tuple_fails' depends on axioms: [propext, Classical.choice, Quot.sound]
'Verif.Ide.Inlay.C82_range' depends on axioms: [propext, Classical.choice, Quot.sound]
'Verif.Ide.Inlay.C82_resolve' depends on axioms: [propext, Classical.choice, Quot.sound]
'Verif.Ide.Inlay.C82_param' depends on axioms: [propext, Classical.choice, Quot.sound]
'Verif.Ide.Inlay.C82_type' depends on axioms: [propext, Classical.choice, Quot.sound]
'Verif.Ide.Inlay.C82_type_shown' depends on axioms: [propext, Classical.choice, Quot.sound]
'Verif.Ide.Inlay.C82_exclusive' depends on axioms: [propext, Classical.choice, Quot.sound]
'Verif.Ide.Complete.C83_import_fails' depends on axioms: [propext, Classical.choice, Quot.sound]
'Verif.Ide.Complete.C83_own_fails' depends on axioms: [propext, Classical.choice, Quot.sound]
'Verif.Ide.Complete.C83_walk' depends on axioms: [propext, Quot.sound]
'Verif.Ide.Complete.C83_complete' depends on axioms: [propext, Classical.choice, Quot.sound]
'Verif.Ide.Complete.C83_sound' depends on axioms: [propext, Classical.choice, Quot.sound]
'Verif.Ide.Complete.C83_scope' depends on axioms: [propext, Classical.choice, Quot.sound]
'Verif.Ide.Complete.C83_once' depends on axioms: [propext, Classical.choice, Quot.sound]
'Verif.Ide.Complete.C83_reach' depends on axioms: [propext, Classical.choice, Quot.sound]
'Verif.Ide.Complete.C83_import_partial' depends on axioms: [propext, Quot.sound]
'Verif.Ide.Runnables.C84_only_fails' depends on axioms: [propext, Classical.choice, Quot.sound]
'Verif.Ide.Runnables.C84_args_fails' depends on axioms: [propext, Classical.choice, Quot.sound]
'Verif.Ide.Runnables.C84_lenses' depends on axioms: [propext, Classical.choice, Quot.sound]
'Verif.Ide.Runnables.C84_order' depends on axioms: [propext, Classical.choice, Quot.sound]
'Verif.Ide.Runnables.C84_once' depends on axioms: [propext, Classical.choice, Quot.sound]
'Verif.Ide.Runnables.C84_selects' depends on axioms: [propext, Classical.choice, Quot.sound]
'Verif.Ide.Runnables.C84_runs' depends on axioms: [propext, Classical.choice, Quot.sound]
'Verif.Ide.Runnables.C84_only_partial' depends on axioms: [propext, Classical.choice, Quot.sound]
'Verif.Ide.Runnables.C84_args_partial' depends on axioms: [propext, Classical.choice, Quot.sound]
'Verif.Ide.CompleteFields.C85_literal' depends on axioms: [propext, Classical.choice, Quot.sound]
'Verif.Ide.CompleteFields.C85_path' depends on axioms: [propext, Quot.sound]
'Verif.Ide.CompleteFields.C85_pattern' depends on axioms: [propext, Classical.choice, Quot.sound]
'Verif.Ide.CompleteFields.C85_missing' depends on axioms: [propext, Classical.choice, Quot.sound]
'Verif.Ide.CompleteFields.C85_current' depends on axioms: [propext, Classical.choice, Quot.sound]
'Verif.Ide.CompleteFields.C85_labels' depends on axioms: [propext, Quot.sound]
'Verif.Ide.CompleteFields.C85_label_partial' depends on axioms: [propext, Quot.sound]
'Verif.Ide.CompleteFields.C85_specs' depends on axioms: [propext, Classical.choice, Quot.sound]
'Verif.Ide.CompleteFields.C85_label_fails' depends on axioms: [propext, Classical.choice, Quot.sound]
'Verif.Ide.Specs.C86_specs' depends on axioms: [propext, Classical.choice, Quot.sound]
'Verif.Ide.Specs.C86_lenses' depends on axioms: [propext, Classical.choice, Quot.sound]
'Verif.Ide.Specs.C86_goto' depends on axioms: [propext, Classical.choice, Quot.sound]
'Verif.Ide.Specs.C86_once' depends on axioms: [propext, Classical.choice, Quot.sound]
'Verif.Ide.Specs.C87_proofs' depends on axioms: [propext, Classical.choice, Quot.sound]
'Verif.Ide.Specs.C87_all' depends on axioms: [propext, Classical.choice, Quot.sound]
'Verif.Ide.Specs.C87_found' depends on axioms: [propext, Classical.choice, Quot.sound]
'Verif.Ide.Specs.C87_names_partial' depends on axioms: [propext, Classical.choice, Quot.sound]
'Verif.Ide.Specs.C87_address_fails' depends on axioms: [propext, Classical.choice, Quot.sound]
'Verif.Ide.VisFix.C88_keeps' depends on axioms: [propext, Classical.choice, Quot.sound]
'Verif.Ide.VisFix.C88_reported' depends on axioms: [propext, Quot.sound]
'Verif.Ide.VisFix.C88_visibility' depends on axioms: [propext, Classical.choice, Quot.sound]
'Verif.Ide.VisFix.C88_lexes_partial' depends on axioms: [propext, Classical.choice, Quot.sound]
'Verif.Ide.VisFix.C88_joined_fails' depends on axioms: [propext, Classical.choice, Quot.sound]
'Verif.Ide.Related.C89_only' depends on axioms: [propext, Classical.choice, Quot.sound]
'Verif.Ide.Related.C89_all_partial' depends on axioms: [propext, Classical.choice, Quot.sound]
'Verif.Ide.Related.C89_same_partial' depends on axioms: [propext, Classical.choice, Quot.sound]
'Verif.Ide.Related.C89_cursor' depends on axioms: [propext, Classical.choice, Quot.sound]
'Verif.Ide.Related.C89_short_fails' depends on axioms: [propext, Classical.choice, Quot.sound]
'Verif.Ide.Docs.C90_attached' depends on axioms: [propext, Classical.choice, Quot.sound]
'Verif.Ide.Docs.C90_shown' depends on axioms: [propext, Classical.choice, Quot.sound]
'Verif.Ide.Docs.C90_undocumented' depends on axioms: [propext, Classical.choice, Quot.sound]
'Verif.Ide.Docs.C90_schema_fails' depends on axioms: [propext, Classical.choice, Quot.sound]
'Verif.Ide.Unneeded.C91_turbofish' depends on axioms: [propext, Classical.choice, Quot.sound]
'Verif.Ide.Unneeded.C91_acquires' depends on axioms: [propext, Classical.choice, Quot.sound]
'Verif.Ide.Unneeded.C91_lexes_partial' depends on axioms: [propext, Classical.choice, Quot.sound]
'Verif.Ide.Unneeded.C91_space_fails' depends on axioms: [propext, Classical.choice, Quot.sound]
'Verif.Ide.Shorthand.C92_literal' depends on axioms: [propext, Classical.choice, Quot.sound]
'Verif.Ide.Shorthand.C92_pattern' depends on axioms: [propext, Classical.choice, Quot.sound]
'Verif.Ide.Shorthand.C92_text' depends on axioms: [propext, Classical.choice, Quot.sound]
'Verif.Ide.Shorthand.C92_gives' depends on axioms: [propext, Quot.sound]
'Verif.Ide.Shorthand.C92_binds' depends on axioms: [propext, Quot.sound]
'Verif.Ide.Shorthand.C92_done' depends on axioms: [propext, Quot.sound]
'Verif.Ide.Shorthand.C92_comment_fails' depends on axioms: [propext, Classical.choice, Quot.sound] 
