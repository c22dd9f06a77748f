{
 "claims": [
  {
   "property": "C01",
   "status": "proved",
   "theorems": [
    "Rodkina.Props.C01_hash_from_bytes",
    "Rodkina.Props.C01_hash_from_multi_bytes"
   ],
   "note": ""
  },
  {
   "property": "C02",
   "status": "proved",
   "theorems": [
    "Rodkina.Props.C02_hash_string_round_trip",
    "Rodkina.Props.C02_string_iff_compare"
   ],
   "note": ""
  },
  {
   "property": "C03",
   "status": "proved",
   "theorems": [
    "Rodkina.Props.C03_build_is_merkle"
   ],
   "note": ""
  },
  {
   "property": "C04",
   "status": "partial",
   "theorems": [
    "Rodkina.Props.C04_build_never_panics_partial",
    "Rodkina.Props.C04_empty_list_panics"
   ],
   "note": "false for the empty non-nil list (negation proved); proved for every other list"
  },
  {
   "property": "C05",
   "status": "proved",
   "theorems": [
    "Rodkina.Props.C05_tree_round_trip",
    "Rodkina.Props.C05_decoding_is_exact"
   ],
   "note": ""
  },
  {
   "property": "C06",
   "status": "proved",
   "theorems": [
    "Rodkina.Props.C06_compact"
   ],
   "note": ""
  },
  {
   "property": "C07",
   "status": "proved",
   "theorems": [
    "Rodkina.Props.C07_order_restores",
    "Rodkina.Props.C07_order_only_returns_given"
   ],
   "note": ""
  },
  {
   "property": "C08",
   "status": "partial",
   "theorems": [
    "Rodkina.Props.C08_order_with_empty_block_partial",
    "Rodkina.Props.C08_order_fails_with_empty_block",
    "Rodkina.Props.C08_negation"
   ],
   "note": "false as soon as padding is present (negation proved for every digest); holds without padding"
  },
  {
   "property": "C09",
   "status": "proved",
   "theorems": [
    "Rodkina.Props.C09_head_binds_leaves"
   ],
   "note": ""
  },
  {
   "property": "C10",
   "status": "partial",
   "theorems": [
    "Rodkina.Props.C10_head_binds_blocks_partial",
    "Rodkina.Props.C10_block_and_its_digest_collide",
    "Rodkina.Props.C10_trailing_empty_block_collides",
    "Rodkina.Props.C10_inner_nodes_collide_with_leaves"
   ],
   "note": "false for 64-byte blocks (negation proved); proved when no block has 64 bytes"
  },
  {
   "property": "C11",
   "status": "proved",
   "theorems": [
    "Rodkina.Props.C11_height"
   ],
   "note": ""
  },
  {
   "property": "C12",
   "status": "partial",
   "theorems": [
    "Rodkina.Props.C12_decode_no_panic_partial",
    "Rodkina.Props.C12_panic_only_on_overrun_partial",
    "Rodkina.Props.C12_overrun_never_accepted",
    "Rodkina.Props.C12_short_compact_refused",
    "Rodkina.Props.C12_decode_panics",
    "Rodkina.Props.C134_hash_trees"
   ],
   "note": "false (negation proved); C134_hash_trees says exactly which bytes crash; for arbitrary bytes a panic means that a length field says more than there is, and such bytes are never accepted"
  },
  {
   "property": "C63",
   "status": "partial",
   "theorems": [
    "Rodkina.Props.C63_honest_tree_consistent_partial",
    "Rodkina.Props.C63_tampered_tree_accepted",
    "Rodkina.Props.C63_negation"
   ],
   "note": "false: decoding never checks heads (negation proved)"
  },
  {
   "property": "C64",
   "status": "partial",
   "theorems": [
    "Rodkina.Props.C64_compact_reads_past_end",
    "Rodkina.Props.C06_compact",
    "Rodkina.Props.C128_same_unless_crash_partial"
   ],
   "note": "false (negation proved); content produced by the encoder decodes independently of the buffer"
  },
  {
   "property": "C13",
   "status": "proved",
   "theorems": [
    "Rodkina.Props.C13_pointer_round_trip",
    "Rodkina.Props.C13_pointer_rejects",
    "Rodkina.Props.C13_content_key_round_trip",
    "Rodkina.Props.C13_content_key_rejects"
   ],
   "note": ""
  },
  {
   "property": "C14",
   "status": "proved",
   "theorems": [
    "Rodkina.Props.C14_keys_round_trip",
    "Rodkina.Props.C14_keys_fetch",
    "Rodkina.Props.C14_keys_by_kind"
   ],
   "note": ""
  },
  {
   "property": "C15",
   "status": "proved",
   "theorems": [
    "Rodkina.Props.C15_next_is_past_everything",
    "Rodkina.Props.C15_wraps_at_the_end"
   ],
   "note": "the second theorem shows that the stated bound is needed"
  },
  {
   "property": "C16",
   "status": "proved",
   "theorems": [
    "Rodkina.Props.C16_commit_round_trip"
   ],
   "note": ""
  },
  {
   "property": "C17",
   "status": "partial",
   "theorems": [
    "Rodkina.Props.C17_proof_kept_partial",
    "Rodkina.Props.C17_negative_proof_loses_sign"
   ],
   "note": "false for negative proofs (negation proved)"
  },
  {
   "property": "C18",
   "status": "partial",
   "theorems": [
    "Rodkina.Props.C18_hash_binds_commit_partial",
    "Rodkina.Props.C18_hash_binds_commit_and_proof_partial",
    "Rodkina.Props.C18_time_and_proof_ambiguous",
    "Rodkina.Props.C18_zero_proof_ambiguous",
    "Rodkina.Props.C18_parent_and_proof_ambiguous"
   ],
   "note": "proved for commits without proof, and with positive proofs below 256^63 for 64-byte parents and times with the same number of digits; false in general with proofs (negations proved)"
  },
  {
   "property": "C19",
   "status": "proved",
   "theorems": [
    "Rodkina.Props.C19_commits_round_trip",
    "Rodkina.Props.C19_reference_round_trip"
   ],
   "note": ""
  },
  {
   "property": "C20",
   "status": "proved",
   "theorems": [
    "Rodkina.Props.C20_latest",
    "Rodkina.Props.C20_fetch"
   ],
   "note": ""
  },
  {
   "property": "C21",
   "status": "proved",
   "theorems": [
    "Rodkina.Props.C21_score"
   ],
   "note": ""
  },
  {
   "property": "C22",
   "status": "proved",
   "theorems": [
    "Rodkina.Props.C22_contents_round_trip",
    "Rodkina.Props.C22_content_round_trip"
   ],
   "note": ""
  },
  {
   "property": "C65",
   "status": "partial",
   "theorems": [
    "Rodkina.Props.C65_reference_decode_no_panic_partial",
    "Rodkina.Props.C65_panic_only_on_overrun_partial",
    "Rodkina.Props.C65_reference_decode_panics",
    "Rodkina.Props.C65_keys_decode_panics",
    "Rodkina.Props.C134_content_keys",
    "Rodkina.Props.C134_commits",
    "Rodkina.Props.C134_references"
   ],
   "note": "false (negations proved); C134 says exactly which bytes crash; for arbitrary bytes a panic means that a length or count field says more than there is"
  },
  {
   "property": "C23",
   "status": "proved",
   "theorems": [
    "Rodkina.Props.C23_commit_makes_pending_readable"
   ],
   "note": ""
  },
  {
   "property": "C24",
   "status": "proved",
   "theorems": [
    "Rodkina.Props.C24_commit_keeps_everything"
   ],
   "note": ""
  },
  {
   "property": "C25",
   "status": "partial",
   "theorems": [
    "Rodkina.Props.C25_copy_keeps_whole_chunks_partial",
    "Rodkina.Props.C25_copy_loses_data"
   ],
   "note": "false when the chunk size is smaller than the data and does not divide it (negation proved); what is kept is characterised exactly"
  },
  {
   "property": "C26",
   "status": "proved",
   "theorems": [
    "Rodkina.Props.C26_reopen_recovers"
   ],
   "note": ""
  },
  {
   "property": "C27",
   "status": "proved",
   "theorems": [
    "Rodkina.Props.C27_pending_invisible",
    "Rodkina.Props.C27_write_appends"
   ],
   "note": ""
  },
  {
   "property": "C28",
   "status": "proved",
   "theorems": [
    "Rodkina.Props.C28_commits_form_a_chain"
   ],
   "note": ""
  },
  {
   "property": "C29",
   "status": "proved",
   "theorems": [
    "Rodkina.Props.C29_contents_tile_the_data"
   ],
   "note": ""
  },
  {
   "property": "C30",
   "status": "proved",
   "theorems": [
    "Rodkina.Props.C30_commit_touches_only_its_database",
    "Rodkina.Props.C30_new_and_delete_touch_only_their_database",
    "Rodkina.Props.C30_context_calls_touch_only_their_context"
   ],
   "note": ""
  },
  {
   "property": "C31",
   "status": "partial",
   "theorems": [
    "Rodkina.Props.C31_interrupted_commit_partial",
    "Rodkina.Props.C31_ignored_failure_loses_database"
   ],
   "note": "false when a failure inside the copy loop is swallowed (negation proved); proved for every crash point and every noticed failure"
  },
  {
   "property": "C32",
   "status": "partial",
   "theorems": [
    "Rodkina.Props.C32_openable_outside_the_rename_partial",
    "Rodkina.Props.C32_crash_leaves_no_database"
   ],
   "note": "false between the removal and the rename (negation proved); proved everywhere else"
  },
  {
   "property": "C33",
   "status": "partial",
   "theorems": [
    "Rodkina.Props.C33_commit_after_cancel_changes_nothing_partial",
    "Rodkina.Props.C33_second_commit_stores_again"
   ],
   "note": "false: Commit does not clear the pending contents (negation proved)"
  },
  {
   "property": "C34",
   "status": "partial",
   "theorems": [
    "Rodkina.Props.C34_commit_never_panics_partial",
    "Rodkina.Props.C34_commit_with_nothing_pending_panics"
   ],
   "note": "false with nothing pending (negation proved); proved with pending contents and an open handle"
  },
  {
   "property": "C35",
   "status": "partial",
   "theorems": [
    "Rodkina.Props.C35_open_is_fresh_partial",
    "Rodkina.Props.C35_open_reuses_an_identifier"
   ],
   "note": "false when contexts are not closed in reverse order (negation proved)"
  },
  {
   "property": "C36",
   "status": "proved",
   "theorems": [
    "Rodkina.Props.C36_new_delete_exists",
    "Rodkina.Props.C36_new_database_is_empty"
   ],
   "note": "One process; with several see C132."
  },
  {
   "property": "C37",
   "status": "proved",
   "theorems": [
    "Rodkina.Props.C37_failed_commit_keeps_the_file",
    "Rodkina.Props.C37_commit_can_be_retried"
   ],
   "note": ""
  },
  {
   "property": "C38",
   "status": "partial",
   "theorems": [
    "Rodkina.Props.C38_processes_in_turn_keep_commits_partial",
    "Rodkina.Props.C38_lost_update"
   ],
   "note": "false for applications that are open at the same time (negation proved); proved for processes in turn"
  },
  {
   "property": "C39",
   "status": "partial",
   "theorems": [
    "Rodkina.Props.C39_open_panics_exactly_partial",
    "Rodkina.Props.C39_open_panics"
   ],
   "note": "false (negation proved); the files that make it panic are characterised exactly"
  },
  {
   "property": "C66",
   "status": "partial",
   "theorems": [
    "Rodkina.Props.C66_success_means_written_partial",
    "Rodkina.Props.C66_success_without_storing",
    "Rodkina.Props.C66_failures_are_not_reported",
    "Rodkina.Props.C66_torn_content"
   ],
   "note": "false when a failure is swallowed: proved for every failure in the two loops, with the exact file left by a failing write of a pending content; proved when none is swallowed"
  },
  {
   "property": "C67",
   "status": "partial",
   "theorems": [
    "Rodkina.Props.C67_context_usable_after_early_failure_partial",
    "Rodkina.Props.C67_failed_commit_leaves_context_unusable"
   ],
   "note": "false for failures at or after the closing of the old handle (negation proved)"
  },
  {
   "property": "C68",
   "status": "partial",
   "theorems": [
    "Rodkina.Props.C68_deleted_stays_deleted_partial",
    "Rodkina.Props.C68_commit_resurrects"
   ],
   "note": "false when the database is open while it is deleted (negation proved)"
  },
  {
   "property": "C69",
   "status": "proved",
   "theorems": [
    "Rodkina.Props.C69_listed_contents_are_readable"
   ],
   "note": ""
  },
  {
   "property": "C70",
   "status": "proved",
   "theorems": [
    "Rodkina.Props.C70_history_only_appends"
   ],
   "note": "Under the conditions named in the statement; without them it is false (C25_copy_loses_data, C31_ignored_failure_loses_database)."
  },
  {
   "property": "C71",
   "status": "partial",
   "theorems": [
    "Rodkina.Props.C71_cut_file_is_noticed_partial",
    "Rodkina.Props.C71_short_rest_opens_as_empty"
   ],
   "note": "false when fewer than eight bytes are left (negation proved)"
  },
  {
   "property": "C72",
   "status": "proved",
   "theorems": [
    "Rodkina.Props.C72_batch_reads_agree",
    "Rodkina.Props.C72_listing_by_kind",
    "Rodkina.Props.C72_commit_by_hash"
   ],
   "note": ""
  },
  {
   "property": "C40",
   "status": "proved",
   "theorems": [
    "Rodkina.Props.C40_no_byte_lost"
   ],
   "note": ""
  },
  {
   "property": "C41",
   "status": "partial",
   "theorems": [
    "Rodkina.Props.C41_bytes_bounded_partial",
    "Rodkina.Props.C41_negation"
   ],
   "note": "false with external grammars or escape tokens (negation proved); bounds proved for every grammar"
  },
  {
   "property": "C42",
   "status": "proved",
   "theorems": [
    "Rodkina.Props.C42_trees_are_derivations"
   ],
   "note": ""
  },
  {
   "property": "C43",
   "status": "proved",
   "theorems": [
    "Rodkina.Props.C43_cardinalities"
   ],
   "note": ""
  },
  {
   "property": "C45",
   "status": "partial",
   "theorems": [
    "Rodkina.Props.C45_guarded_grammars_terminate_partial",
    "Rodkina.Props.C45_negation"
   ],
   "note": "false for left-recursive grammars (negation proved for every non-empty input); proved when every reference by name comes after an element that must occur; C156 adds left recursion at the start of a first alternative"
  },
  {
   "property": "C46",
   "status": "partial",
   "theorems": [
    "Rodkina.Props.C46_no_panic_without_escape_partial",
    "Rodkina.Props.C46_negation"
   ],
   "note": "false with escape tokens (negation proved); proved without"
  },
  {
   "property": "C47",
   "status": "partial",
   "theorems": [
    "Rodkina.Props.C47_compose_lines_never_match_partial",
    "Rodkina.Props.C47_compose_root_accepts_nothing",
    "Rodkina.Props.C47_negation"
   ],
   "note": "false: an alternative with a compose never matches (proved for every grammar)"
  },
  {
   "property": "C48",
   "status": "proved",
   "theorems": [
    "Rodkina.Props.C48_compose"
   ],
   "note": ""
  },
  {
   "property": "C49",
   "status": "proved",
   "theorems": [
    "Rodkina.Props.C49_character_classes",
    "Rodkina.Props.C49_character_classes_with_channels"
   ],
   "note": ""
  },
  {
   "property": "C50",
   "status": "proved",
   "theorems": [
    "Rodkina.Props.C50_variable_names",
    "Rodkina.Props.C50_variable_names_with_channels"
   ],
   "note": ""
  },
  {
   "property": "C51",
   "status": "partial",
   "theorems": [
    "Rodkina.Props.C51_value_assignment_takes_everything_partial",
    "Rodkina.Props.C51_negation",
    "Rodkina.Props.C51_accepted"
   ],
   "note": "false: a value assignment takes the whole rest of the input (proved for every input)"
  },
  {
   "property": "C73",
   "status": "proved",
   "theorems": [
    "Rodkina.Props.C73_channel_bytes_do_not_matter",
    "Rodkina.Props.C73_shipped"
   ],
   "note": ""
  },
  {
   "property": "C74",
   "status": "proved",
   "theorems": [
    "Rodkina.Props.C74_hash_token"
   ],
   "note": ""
  },
  {
   "property": "C75",
   "status": "partial",
   "theorems": [
    "Rodkina.Props.C75_grammar_file_has_one_instruction_partial",
    "Rodkina.Props.C75_negation",
    "Rodkina.Props.C75_accepted_files"
   ],
   "note": "false: always exactly one instruction (proved for every input)"
  },
  {
   "property": "C76",
   "status": "proved",
   "theorems": [
    "Rodkina.Props.C76_channels_skip_exactly_blanks"
   ],
   "note": ""
  },
  {
   "property": "C77",
   "status": "partial",
   "theorems": [
    "Rodkina.Props.C77_comment_ends_at_new_line_partial",
    "Rodkina.Props.C77_negation"
   ],
   "note": "false for carriage returns and empty comments (negation proved)"
  },
  {
   "property": "C78",
   "status": "partial",
   "theorems": [
    "Rodkina.Props.C78_reference_occurs_once_partial",
    "Rodkina.Props.C78_negation"
   ],
   "note": "false: a reference by name never occurs twice in a row (proved for every grammar)"
  },
  {
   "property": "C44",
   "status": "partial",
   "theorems": [
    "Rodkina.Props.C44_first_alternative_partial",
    "Rodkina.Props.C44_every_choice_partial",
    "Rodkina.Props.C44_recursive_choice_partial",
    "Rodkina.Props.C44_negation"
   ],
   "note": "false in general with references by name: an earlier alternative that matches is skipped; proved with references that come after something that must occur, are not repeated and are the only ones on the way back to their token, where the interpreter is the only solution of its equation; also proved (every outcome, errors and panics included, is that of a reference interpreter) for all grammars without references by name whose token names differ along every nesting path: channels with conditions, escapes, exceptions of any form, external grammars; channel tokens without escapes and externals"
  },
  {
   "property": "C79",
   "status": "proved",
   "theorems": [
    "Rodkina.Props.C79_accepted_text_in_language"
   ],
   "note": ""
  },
  {
   "property": "C80",
   "status": "partial",
   "theorems": [
    "Rodkina.Props.C80_renaming_partial",
    "Rodkina.Props.C80_renaming_all_partial",
    "Rodkina.Props.C80_negation"
   ],
   "note": "false when a renaming gives a token the name of an enclosing one; proved (success, refusal and panics) for all grammars with a reference interpreter before and after the renaming: exceptions, escapes, externals, channels with conditions, references by name. Renamings that keep different names different are covered for every grammar by C162"
  },
  {
   "property": "C81",
   "status": "partial",
   "theorems": [
    "Rodkina.Props.C81_fixed_text_partial",
    "Rodkina.Props.C81_exact_partial",
    "Rodkina.Props.C81_negation"
   ],
   "note": "false when elements share a name and ask for different minima; proved (exact acceptance and rejection) otherwise. C81_exact_partial decides every case: the text is accepted when the last element of each name asks for the most, else no input is accepted"
  },
  {
   "property": "C82",
   "status": "partial",
   "theorems": [
    "Rodkina.Props.C82_everything_up_to_first_alternative_partial",
    "Rodkina.Props.C82_everything_up_to_first_match_partial",
    "Rodkina.Props.C82_negation",
    "Rodkina.Props.C82_nested_exception_negation"
   ],
   "note": "false for the second and later alternatives of the exception, and for exceptions made of tokens (these are read as everything but their texts); proved (exact) for exceptions whose first alternative is a sequence of bytes with any numbers of occurrences"
  },
  {
   "property": "C83",
   "status": "partial",
   "theorems": [
    "Rodkina.Props.C83_success_or_error_partial",
    "Rodkina.Props.C83_alternatives_exact_partial",
    "Rodkina.Props.C83_elements_exact_partial",
    "Rodkina.Props.C83_negation"
   ],
   "note": "false for optional-only alternatives and repeated names; proved otherwise. For grammars without references by name and clashing names C83_alternatives_exact_partial and C83_elements_exact_partial say exactly when a tree without success is returned: no alternative reads anything on its own, and in one of them every element may be absent and is"
  },
  {
   "property": "C84",
   "status": "partial",
   "theorems": [
    "Rodkina.Props.C84_content_bytes_partial",
    "Rodkina.Props.C84_negation"
   ],
   "note": "false with channel bytes; proved without, and for tree contents"
  },
  {
   "property": "C52",
   "status": "proved",
   "theorems": [
    "Rodkina.Props.C52_terminates"
   ],
   "note": ""
  },
  {
   "property": "C53",
   "status": "proved",
   "theorems": [
    "Rodkina.Props.C53_selection"
   ],
   "note": ""
  },
  {
   "property": "C54",
   "status": "partial",
   "theorems": [
    "Rodkina.Props.C54_no_panic_partial",
    "Rodkina.Props.C54_negation"
   ],
   "note": "false for single-content functions on absent elements and for nameless elements other than the first; proved on every parsed tree otherwise"
  },
  {
   "property": "C55",
   "status": "proved",
   "theorems": [
    "Rodkina.Props.C55_remaining"
   ],
   "note": ""
  },
  {
   "property": "C85",
   "status": "partial",
   "theorems": [
    "Rodkina.Props.C85_references_are_lexical_partial",
    "Rodkina.Props.C85_negation"
   ],
   "note": "false when a nested query is on a token with a referenced name; proved (equality with the reference semantics) otherwise"
  },
  {
   "property": "C86",
   "status": "proved",
   "theorems": [
    "Rodkina.Props.C86_fetchers_all_match",
    "Rodkina.Props.C86_two_tokens_fail"
   ],
   "note": ""
  },
  {
   "property": "C87",
   "status": "partial",
   "theorems": [
    "Rodkina.Props.C87_other_token_fails",
    "Rodkina.Props.C87_negation"
   ],
   "note": "false: Matches is always true; proved that queries on another token fail on every parsed tree"
  },
  {
   "property": "C56",
   "status": "proved",
   "theorems": [
    "Rodkina.Props.C56_outputs"
   ],
   "note": ""
  },
  {
   "property": "C57",
   "status": "proved",
   "theorems": [
    "Rodkina.Props.C57_enough_inputs"
   ],
   "note": ""
  },
  {
   "property": "C58",
   "status": "partial",
   "theorems": [
    "Rodkina.Props.C58_direct_partial",
    "Rodkina.Props.C58_effects_partial",
    "Rodkina.Props.C58_negation_overwritten",
    "Rodkina.Props.C58_negation_unused"
   ],
   "note": "false when an input parameter is assigned or an input is missing; proved otherwise for pure modules, and for modules with effects, effects included, when attached variables hold inputs and constants"
  },
  {
   "property": "C59",
   "status": "partial",
   "theorems": [
    "Rodkina.Props.C59_calls_partial",
    "Rodkina.Props.C59_at_least_once_partial",
    "Rodkina.Props.C59_exact_partial",
    "Rodkina.Props.C59_iff_partial",
    "Rodkina.Props.C59_negation"
   ],
   "note": "false: attached results of executions are computed again; proved when attached variables hold inputs and constants; for all programs: at least once, the exact sequence of calls, and that the claim holds exactly of the programs for which computing again adds no call"
  },
  {
   "property": "C60",
   "status": "proved",
   "theorems": [
    "Rodkina.Props.C60_compile_scoped"
   ],
   "note": ""
  },
  {
   "property": "C61",
   "status": "proved",
   "theorems": [
    "Rodkina.Props.C61_later_text",
    "Rodkina.Props.C61_parameters",
    "Rodkina.Props.C61_parameters_execution",
    "Rodkina.Props.C61_values"
   ],
   "note": ""
  },
  {
   "property": "C88",
   "status": "proved",
   "theorems": [
    "Rodkina.Props.C88_execute_byName"
   ],
   "note": ""
  },
  {
   "property": "C62",
   "status": "partial",
   "theorems": [
    "Rodkina.Props.C62_panics_without_suites",
    "Rodkina.Props.C62_negation_escape",
    "Rodkina.Props.C62_no_panic_partial"
   ],
   "note": "False without suites and with escape tokens; otherwise (distinct names) a report is returned whenever the parser ends on the suites."
  },
  {
   "property": "C89",
   "status": "partial",
   "theorems": [
    "Rodkina.Props.C89_records_suites",
    "Rodkina.Props.C89_complete_partial",
    "Rodkina.Props.C89_once_partial",
    "Rodkina.Props.C89_negation"
   ],
   "note": "Recorded tests are right for every grammar; none is run twice without externals; complete when names are distinct, channel conditions aside; false otherwise."
  },
  {
   "property": "C90",
   "status": "partial",
   "theorems": [
    "Rodkina.Props.C90_contains_error_partial",
    "Rodkina.Props.C90_negation"
   ],
   "note": "An error is reported exactly when the parser returns an error on a suite; the marks of the suites are ignored, so the claim itself is false."
  },
  {
   "property": "C91",
   "status": "partial",
   "theorems": [
    "Rodkina.Props.C91_report_partial",
    "Rodkina.Props.C91_unused_partial",
    "Rodkina.Props.C91_negation_optional",
    "Rodkina.Props.C91_negation_external"
   ],
   "note": "Exact description of the report for every grammar; it is the set of unused elements for grammars without optional elements and external grammars, and is not otherwise."
  },
  {
   "property": "C92",
   "status": "partial",
   "theorems": [
    "Rodkina.Props.C92_found_is_named",
    "Rodkina.Props.C92_first",
    "Rodkina.Props.C92_smaller_index",
    "Rodkina.Props.C92_index_partial",
    "Rodkina.Props.C92_exact_partial",
    "Rodkina.Props.C92_negation"
   ],
   "note": "Result has the name (all indices), index 0 is the first in document order (exact), index i exact when the name is only on the tree's own elements; false deeper, where the index is counted at every level. C92_exact_partial says what is found, and when nothing is, for every tree and index."
  },
  {
   "property": "C93",
   "status": "partial",
   "theorems": [
    "Rodkina.Props.C93_negation",
    "Rodkina.Props.C93_one_at_a_time_partial",
    "Rodkina.Props.C93_commits_one_after_the_other_partial"
   ],
   "note": "False in general: the lock is on the inode of the database file, which a commit removes and replaces; C93_negation gives, for any two commits to a new database, a schedule in which both hold a lock, the first reports success and the database file is gone at the end. Proved for all schedules in which no lock is attempted between another process's removal of the file and its unlock, nor on a file replaced since it was opened: mutual exclusion and equivalence with commits done one after the other. Processes that die are not modelled."
  },
  {
   "property": "C94",
   "status": "partial",
   "theorems": [
    "Rodkina.Props.C94_snapshot_partial",
    "Rodkina.Props.C94_overlapping_partial",
    "Rodkina.Props.C94_negation"
   ],
   "note": "Proved for every history of calls of any number of applications, commits failing or stopping at any file operation, and for commits that overlap in any interleaving of their file operations in which no lock is attempted on a replaced file (C94_overlapping_partial); false when the file operations of two commits are interleaved, because both use the same temporary file and the lock does not exclude them (C94_negation gives the schedule for any two commits to a new database)."
  },
  {
   "property": "C95",
   "status": "proved",
   "theorems": [
    "Rodkina.Props.C95_lists",
    "Rodkina.Props.C95_value",
    "Rodkina.Props.C95_cardinality",
    "Rodkina.Props.C95_composeElement",
    "Rodkina.Props.C95_compose",
    "Rodkina.Props.C95_token",
    "Rodkina.Props.C95_everything",
    "Rodkina.Props.C95_external",
    "Rodkina.Props.C95_condition",
    "Rodkina.Props.C95_channel",
    "Rodkina.Props.C95_grammar",
    "Rodkina.Props.C95_never_panics"
   ],
   "note": "Exact result of every sequence of calls on every builder without alternatives; no builder panics."
  },
  {
   "property": "C96",
   "status": "partial",
   "theorems": [
    "Rodkina.Props.C96_negation",
    "Rodkina.Props.C96_suite_partial",
    "Rodkina.Props.C96_instance_partial",
    "Rodkina.Props.C96_container_partial",
    "Rodkina.Props.C96_element_partial"
   ],
   "note": "False: the builders take the first alternative in a fixed order and drop the others silently. Proved instead: the exact result for every sequence of calls."
  },
  {
   "property": "C97",
   "status": "partial",
   "theorems": [
    "Rodkina.Props.C97_built_iff_wellformed_partial",
    "Rodkina.Props.C97_token_built_iff_wellformed_partial",
    "Rodkina.Props.C97_negation",
    "Rodkina.Props.C97_impossible_cardinality_never_matches_partial",
    "Rodkina.Props.C97_impossible_root_accepts_nothing",
    "Rodkina.Props.C97_shipped_grammar_built"
   ],
   "note": "Buildable = well-formed proved for all grammars but for cardinalities: a minimum above the maximum is accepted; such an alternative is proved never to match."
  },
  {
   "property": "C98",
   "status": "partial",
   "theorems": [
    "Rodkina.Props.C98_all_characters_partial",
    "Rodkina.Props.C98_any_character_partial",
    "Rodkina.Props.C98_all_characters_negation",
    "Rodkina.Props.C98_any_character_negation"
   ],
   "note": "Proved (exact acceptance and rejection, own suites) for ASCII texts; false for other characters, of which only the low eight bits are kept."
  },
  {
   "property": "C99",
   "status": "proved",
   "theorems": [
    "Rodkina.Props.C99_components",
    "Rodkina.Props.C99_no_empty_suite"
   ],
   "note": "Exact result of every component function."
  },
  {
   "property": "C100",
   "status": "proved",
   "theorems": [
    "Rodkina.Props.C100_element",
    "Rodkina.Props.C100_token",
    "Rodkina.Props.C100_fetchers",
    "Rodkina.Props.C100_query",
    "Rodkina.Props.C100_never_panics"
   ],
   "note": "Exact result of every sequence of calls."
  },
  {
   "property": "C101",
   "status": "partial",
   "theorems": [
    "Rodkina.Props.C101_negation",
    "Rodkina.Props.C101_contentFn_partial",
    "Rodkina.Props.C101_queryFn_partial",
    "Rodkina.Props.C101_fetcher_partial",
    "Rodkina.Props.C101_inside_partial"
   ],
   "note": "False: the builders take the first alternative in a fixed order. Proved instead: the exact result for every sequence of calls."
  },
  {
   "property": "C102",
   "status": "proved",
   "theorems": [
    "Rodkina.Props.C102_built_iff_wellformed",
    "Rodkina.Props.C102_token_built_iff_wellformed"
   ],
   "note": "Buildable = well-formed, at any depth."
  },
  {
   "property": "C103",
   "status": "proved",
   "theorems": [
    "Rodkina.Props.C103_module",
    "Rodkina.Props.C103_application",
    "Rodkina.Props.C103_parameter",
    "Rodkina.Props.C103_variable",
    "Rodkina.Props.C103_attachment",
    "Rodkina.Props.C103_assignment",
    "Rodkina.Props.C103_instructions",
    "Rodkina.Props.C103_pModule",
    "Rodkina.Props.C103_pAttachment",
    "Rodkina.Props.C103_pApplication",
    "Rodkina.Props.C103_program",
    "Rodkina.Props.C103_lists",
    "Rodkina.Props.C103_never_panics"
   ],
   "note": "Exact result of every sequence of calls."
  },
  {
   "property": "C104",
   "status": "partial",
   "theorems": [
    "Rodkina.Props.C104_negation",
    "Rodkina.Props.C104_value_partial",
    "Rodkina.Props.C104_instruction_partial",
    "Rodkina.Props.C104_pInstruction_partial",
    "Rodkina.Props.C104_pValue_partial"
   ],
   "note": "False: the builders take the first alternative in a fixed order. Proved instead: the exact result for every sequence of calls."
  },
  {
   "property": "C105",
   "status": "proved",
   "theorems": [
    "Rodkina.Props.C105_source_built_iff_wellformed",
    "Rodkina.Props.C105_program_built_iff_wellformed",
    "Rodkina.Props.C105_compiled_is_built",
    "Rodkina.Props.C105_not_all_compiled",
    "Rodkina.Props.C105_compile_calls"
   ],
   "note": "Invariant of the compiler's state; buildable = well-formed by mutual induction."
  },
  {
   "property": "C106",
   "status": "proved",
   "theorems": [
    "Rodkina.Props.C106_no_panic",
    "Rodkina.Props.C106_outputs",
    "Rodkina.Props.C106_inputs",
    "Rodkina.Props.C106_succeeds",
    "Rodkina.Props.C106_bad_output",
    "Rodkina.Props.C106_each_output"
   ],
   "note": "Mutual induction over programs."
  },
  {
   "property": "C107",
   "status": "proved",
   "theorems": [
    "Rodkina.Props.C107_value",
    "Rodkina.Props.C107_element",
    "Rodkina.Props.C107_line",
    "Rodkina.Props.C107_block",
    "Rodkina.Props.C107_tree",
    "Rodkina.Props.C107_execution",
    "Rodkina.Props.C107_coverage",
    "Rodkina.Props.C107_lists",
    "Rodkina.Props.C107_never_panics"
   ],
   "note": "Exact result for every sequence of calls."
  },
  {
   "property": "C108",
   "status": "partial",
   "theorems": [
    "Rodkina.Props.C108_negation",
    "Rodkina.Props.C108_content_partial",
    "Rodkina.Props.C108_result_partial"
   ],
   "note": "False: a byte wins over a tree, a tree over an error, whatever the order. Proved instead: the exact result for every sequence of calls."
  },
  {
   "property": "C109",
   "status": "proved",
   "theorems": [
    "Rodkina.Props.C109_tree_built_iff_wellformed",
    "Rodkina.Props.C109_coverage_built_iff_wellformed"
   ],
   "note": "Mutual induction over trees. Grammars given to the builders are arbitrary."
  },
  {
   "property": "C110",
   "status": "proved",
   "theorems": [
    "Rodkina.Props.C110_parsed_is_built",
    "Rodkina.Props.C110_coverages_are_built"
   ],
   "note": "Invariant of the parser."
  },
  {
   "property": "C111",
   "status": "proved",
   "theorems": [
    "Rodkina.Props.C111_bytes",
    "Rodkina.Props.C111_fetch",
    "Rodkina.Props.C111_covered"
   ],
   "note": "The reading functions are modelled with their panics; mutual induction over well-formed trees."
  },
  {
   "property": "C112",
   "status": "partial",
   "theorems": [
    "Rodkina.Props.C112_negation",
    "Rodkina.Props.C112_counts_partial"
   ],
   "note": "False: the builders do not compare the bytes with the grammar. Proved instead: what the marked line satisfies (counts only)."
  },
  {
   "property": "C113",
   "status": "proved",
   "theorems": [
    "Rodkina.Props.C113_leaf",
    "Rodkina.Props.C113_parentLeaf",
    "Rodkina.Props.C113_compact",
    "Rodkina.Props.C113_pointer",
    "Rodkina.Props.C113_contentKey",
    "Rodkina.Props.C113_commit",
    "Rodkina.Props.C113_reference",
    "Rodkina.Props.C113_content",
    "Rodkina.Props.C113_lists",
    "Rodkina.Props.C113_keyed",
    "Rodkina.Props.C113_never_panics",
    "Rodkina.Props.C113_factory_fails"
   ],
   "note": "Induction over the calls. The factory of references asks the builder for a reference without contents, so it always returns an error."
  },
  {
   "property": "C114",
   "status": "partial",
   "theorems": [
    "Rodkina.Props.C114_exact_partial",
    "Rodkina.Props.C114_tree_of_blocks_partial",
    "Rodkina.Props.C114_panics_iff",
    "Rodkina.Props.C114_blocks_ignored",
    "Rodkina.Props.C114_head_unchecked"
   ],
   "note": "False: with head and parent given, blocks are ignored and the head is not checked; an empty list panics. Proved instead: the exact result for every sequence of calls, when it panics, and that the tree is that of the blocks otherwise."
  },
  {
   "property": "C115",
   "status": "partial",
   "theorems": [
    "Rodkina.Props.C115_lists_partial",
    "Rodkina.Props.C115_objects_partial",
    "Rodkina.Props.C115_hash_tree_partial",
    "Rodkina.Props.C115_hash_tree_changes"
   ],
   "note": "False for hash trees of an empty list of blocks (first Now panics, second gives a tree). Proved for every builder whose Now assigns a field, for hash trees as long as no empty list is given; the other builders assign no field in Now."
  },
  {
   "property": "C116",
   "status": "proved",
   "theorems": [
    "Rodkina.Props.C116_trees",
    "Rodkina.Props.C116_compacts",
    "Rodkina.Props.C116_references",
    "Rodkina.Props.C116_contents"
   ],
   "note": "Built equals well-formed; sizes below 2^63 (2^64 for hash trees). Hashes given are of 64 bytes, proofs not negative."
  },
  {
   "property": "C117",
   "status": "partial",
   "theorems": [
    "Rodkina.Props.C117_result_partial",
    "Rodkina.Props.C117_unchanged_partial",
    "Rodkina.Props.C117_own_partial",
    "Rodkina.Props.C117_overwritten"
   ],
   "note": "False: given data[:1] the builder overwrites data[1]. Proved instead: the result, and that all lists stay that have nothing in the room behind a list of at most one block."
  },
  {
   "property": "C118",
   "status": "partial",
   "theorems": [
    "Rodkina.Props.C118_result_partial",
    "Rodkina.Props.C118_slices_partial",
    "Rodkina.Props.C118_objects_partial",
    "Rodkina.Props.C118_receiver_changes",
    "Rodkina.Props.C118_others_change"
   ],
   "note": "False: the receiver changes, and whatever shares the room behind it. Proved instead: the result, and that everything apart stays."
  },
  {
   "property": "C119",
   "status": "proved",
   "theorems": [
    "Rodkina.Props.C119_compact",
    "Rodkina.Props.C119_independent"
   ],
   "note": "Objects over arrays in an explicit memory; invariant: the new object is over an array of its own."
  },
  {
   "property": "C120",
   "status": "partial",
   "theorems": [
    "Rodkina.Props.C120_as_given_partial",
    "Rodkina.Props.C120_stores_bytes_at_commit",
    "Rodkina.Props.C120_negation_before_commit",
    "Rodkina.Props.C120_negation_after_commit"
   ],
   "note": "False: Write keeps the caller's slice, and contents stay pending after a commit. Proved instead: as given for every program that leaves the buffers of pending contents alone; and, for all programs, that a commit stores the bytes the buffers hold at that time. Hashes are taken by value."
  },
  {
   "property": "C121",
   "status": "proved",
   "theorems": [
    "Rodkina.Props.C121_longest_text",
    "Rodkina.Props.C121_longest_text_blanks",
    "Rodkina.Props.C121_file"
   ],
   "note": "Texts as sets built by concatenation, choice and repetition, apart from tokens; maximal munch and separation lemmas carry the reference interpreter over. What is told apart is the text taken, not which alternative took it (C75 and C51 say that values win)."
  },
  {
   "property": "C122",
   "status": "partial",
   "theorems": [
    "Rodkina.Props.C122_history_partial",
    "Rodkina.Props.C122_list_partial",
    "Rodkina.Props.C122_negation_assign",
    "Rodkina.Props.C122_negation_append",
    "Rodkina.Props.C122_negation_program"
   ],
   "note": "False: List() hands out the slice the open context goes on with. Proved instead: the history is that of lists taken by value for every program that writes to no element of the list of an open database, and a list handed out keeps its commits unless the program writes to its elements. The commits in a list are taken by value."
  },
  {
   "property": "C123",
   "status": "partial",
   "theorems": [
    "Rodkina.Props.C123_next_condition_partial",
    "Rodkina.Props.C123_channel_conditions_partial",
    "Rodkina.Props.C123_negation"
   ],
   "note": "False for the previous condition. Proved: the claim for every channel with a next condition only, and the exact behaviour with both conditions, for words of bytes with one channel; several channels and other tokens are covered by C44_every_choice_partial."
  },
  {
   "property": "C124",
   "status": "partial",
   "theorems": [
    "Rodkina.Props.C124_escaped_text_partial",
    "Rodkina.Props.C124_exact_partial",
    "Rodkina.Props.C124_read_back_partial",
    "Rodkina.Props.C124_negation",
    "Rodkina.Props.C124_end_negation"
   ],
   "note": "False for two exceptions next to each other and for an escaped exception at the end of the input. Proved: the exact outcome on every input, for every escape word and exception word; for bytes, exactly which texts are read back."
  },
  {
   "property": "C125",
   "status": "partial",
   "theorems": [
    "Rodkina.Props.C125_hash_texts_partial",
    "Rodkina.Props.C125_negation"
   ],
   "note": "False: shorter texts are accepted and hashed. Proved: the texts accepted are exactly the even numbers of hexadecimal digits; 128 digits are printed back in lower case; no panic."
  },
  {
   "property": "C126",
   "status": "proved",
   "theorems": [
    "Rodkina.Props.C126_nested_text"
   ],
   "note": "for every three bytes, depth and rest, direct and through another token; by agreement with the reference interpreter for references by name"
  },
  {
   "property": "C127",
   "status": "partial",
   "theorems": [
    "Rodkina.Props.C127_parts_partial",
    "Rodkina.Props.C127_replace_partial",
    "Rodkina.Props.C127_negation"
   ],
   "note": "False when a token has the name of one around it. Proved, for reading and refusing, for all grammars with a reference interpreter without channels and external grammars whose parts refer to nothing around them but the root."
  },
  {
   "property": "C128",
   "status": "partial",
   "theorems": [
    "Rodkina.Props.C128_same_unless_crash_partial",
    "Rodkina.Props.C128_values_partial",
    "Rodkina.Props.C128_no_overrun_partial",
    "Rodkina.Props.C128_negation"
   ],
   "note": "False: compact trees, lists of content keys and references are made of bytes behind the slice, and hash trees are refused or crash the decoder depending on them. Proved: bytes that do not crash a decoder at the end of their buffer give the same outcome everywhere; accepted hash trees, commits and contents, and their values, never depend on what follows; bytes whose lengths and counts do not overrun have the same outcome everywhere."
  },
  {
   "property": "C129",
   "status": "partial",
   "theorems": [
    "Rodkina.Props.C129_whole_commits_partial",
    "Rodkina.Props.C129_wrong_places",
    "Rodkina.Props.C129_negation",
    "Rodkina.Props.C129_missing"
   ],
   "note": "False: Open opens the file twice. When a commit ends in between, the context has the old reference on the new file and reads every content at least 152 bytes too far to the front (C129_wrong_places); committing from it stores the wrong bytes and drops the other commit (C129_negation); between the removal of the old and the renaming of the new file Open fails (C129_missing). Proved: if both times the same file is opened, the context shows the database after a whole number of commits, including all finished ones."
  },
  {
   "property": "C130",
   "status": "partial",
   "theorems": [
    "Rodkina.Props.C130_reading_partial",
    "Rodkina.Props.C130_commits_partial",
    "Rodkina.Props.C130_busy_partial",
    "Rodkina.Props.C130_alone_partial",
    "Rodkina.Props.C130_negation",
    "Rodkina.Props.C130_reader",
    "Rodkina.Props.C130_lost",
    "Rodkina.Props.C130_same_identifier"
   ],
   "note": "False: nothing guards the map of contexts. Whenever two databases are open, goroutines writing to them can end the process (C130_negation), also when one only reads (C130_reader); of two successful writes to one database one can be lost (C130_lost); two successful Opens of different databases can return the same identifier, under which only one is found (C130_same_identifier). Proved: any number of goroutines that only ask get what they get alone, in every interleaving (C130_reading_partial); goroutines that ask, create, delete and commit, each its own open databases, get what they get alone and leave the files they leave alone, and each finishes in every fair schedule (C130_commits_partial); a second Commit of a database being committed fails and changes nothing (C130_busy_partial); the accesses of one goroutine are the calls, Commit included (C130_alone_partial). With a mutex around every call: C133."
  },
  {
   "property": "C131",
   "status": "proved",
   "theorems": [
    "Rodkina.Props.C131_apart"
   ],
   "note": ""
  },
  {
   "property": "C132",
   "status": "partial",
   "theorems": [
    "Rodkina.Props.C132_partial",
    "Rodkina.Props.C132_emptied",
    "Rodkina.Props.C132_negation",
    "Rodkina.Props.C132_every_commit"
   ],
   "note": "False: New looks for the file and then creates it; whatever others stored in between is emptied, and New reports success (C132_emptied, C132_negation); this can happen to every database during every commit that would succeed, because a commit removes the file before it puts the new one in its place (C132_every_commit). Proved: what New does when the file was there, and when it does not appear in between."
  },
  {
   "property": "C133",
   "status": "proved",
   "theorems": [
    "Rodkina.Props.C133_turns",
    "Rodkina.Props.C133_progress",
    "Rodkina.Props.C133_serial"
   ],
   "note": "For every schedule of any number of goroutines that lock one mutex around each call (all calls, Commit included): results, files and open databases are those of the calls one after the other in the order of the unlocks; the process stops only if a call of that order panics; from every moment every goroutine can finish unless a call panics or never returns. Hypotheses: the names of the databases used give different files (Distinct), a file being opened has fewer than 2^63 bytes."
  },
  {
   "property": "C134",
   "status": "proved",
   "theorems": [
    "Rodkina.Props.C134_hash_trees",
    "Rodkina.Props.C134_compact_trees",
    "Rodkina.Props.C134_content_key",
    "Rodkina.Props.C134_content_keys",
    "Rodkina.Props.C134_commit",
    "Rodkina.Props.C134_commits",
    "Rodkina.Props.C134_references",
    "Rodkina.Props.C134_content",
    "Rodkina.Props.C134_contents"
   ],
   "note": "the formats and the crashing bytes are defined on byte strings (CrashSpec); a third outcome than value and crash is an error"
  },
  {
   "property": "C135",
   "status": "partial",
   "theorems": [
    "Rodkina.Props.C135_equal_partial",
    "Rodkina.Props.C135_exact_partial",
    "Rodkina.Props.C135_negation",
    "Rodkina.Props.C135_same_commit"
   ],
   "note": "False for commits, lists of commits, compact trees, lists of content keys and references (C135_negation; different bytes read as the same commit: C135_same_commit). Proved for hash trees, single content keys, contents and lists of contents; for the others an exact condition. Byte strings shorter than 2^63."
  },
  {
   "property": "C136",
   "status": "proved",
   "theorems": [
    "Rodkina.Props.C136_one_after_the_other"
   ],
   "note": "for every program the compiler returns; effects of modules are arbitrary functions of a state"
  },
  {
   "property": "C137",
   "status": "proved",
   "theorems": [
    "Rodkina.Props.C137_commits_account_for_contents"
   ],
   "note": ""
  },
  {
   "property": "C138",
   "status": "proved",
   "theorems": [
    "Rodkina.Props.C138_hash_pins_the_history",
    "Rodkina.Props.C138_commits_are_different"
   ],
   "note": "by reduction: either the histories agree or a collision of SHA-512 exists; equally many leaves is needed for the contents (C10_inner_nodes_collide_with_leaves)"
  },
  {
   "property": "C139",
   "status": "partial",
   "theorems": [
    "Rodkina.Props.C139_whole_commits_partial",
    "Rodkina.Props.C139_untouched_partial",
    "Rodkina.Props.C139_negation"
   ],
   "note": "False: nothing is ever flushed; if the disk has the new names but not yet the bytes of the renamed file, the database opens without error and is empty, though the commit had reported success (C139_negation). Proved: if names reach the disk only after what was written before, the database file is as after a whole number of commits, or it is missing and the temporary file is so; on any disk other files, and the old file as long as it has its name, are untouched."
  },
  {
   "property": "C140",
   "status": "proved",
   "theorems": [
    "Rodkina.Props.C140_rounding",
    "Rodkina.Props.C140_powers_need_the_test"
   ],
   "note": "math.Ceil, powers of two and conversions between lengths and floats are taken to be exact; C140_powers_need_the_test: without the test for powers of two it would be false"
  },
  {
   "property": "C141",
   "status": "partial",
   "theorems": [
    "Rodkina.Props.C141_ends_partial",
    "Rodkina.Props.C141_exact_partial",
    "Rodkina.Props.C141_negation"
   ],
   "note": "False: if nothing lies behind the reference of a database (a first commit whose write failed and that reported success), or the chunk size is zero, the next commit copies chunks of no bytes for ever (C141_negation). Proved: otherwise every commit ends, whatever fails; and when nothing fails these are exactly the commits that do not end."
  },
  {
   "property": "C142",
   "status": "proved",
   "theorems": [
    "Rodkina.Props.C142_any_parameters",
    "Rodkina.Props.C142_taking_turns"
   ],
   "note": "Turns under the conditions of C70."
  },
  {
   "property": "C143",
   "status": "partial",
   "theorems": [
    "Rodkina.Props.C143_exact_partial",
    "Rodkina.Props.C143_reads_stored_bytes_partial",
    "Rodkina.Props.C143_negation"
   ],
   "note": "False: the position is added to the offset of the data in 64 bits and wraps; a pointer near 2^64, behind all data, reads the bytes of the reference in front of the data (C143_negation, in every database with a commit). Exactly which pointers give which bytes is C143_exact_partial; for pointers that end below 2^63 the claim holds."
  },
  {
   "property": "C144",
   "status": "partial",
   "theorems": [
    "Rodkina.Props.C144_plain_names_partial",
    "Rodkina.Props.C144_names_partial",
    "Rodkina.Props.C144_negation",
    "Rodkina.Props.C144_two_spellings"
   ],
   "note": "False: names are joined to the directory without a check. './n' is another spelling of n, and '../n' is outside the directory (C144_negation); a second spelling opens an open database again, and a commit under one spelling is lost by a commit under the other (C144_two_spellings). Holds for names of one part, which also have what all other theorems about several databases assume (C144_names_partial)."
  },
  {
   "property": "C145",
   "status": "partial",
   "theorems": [
    "Rodkina.Props.C145_new_exactly_partial",
    "Rodkina.Props.C145_negation"
   ],
   "note": "False: without a directory (an empty path, with which Open and Exists work) New never succeeds, and names that lead through a directory that is not there are not created (C145_negation). For names of one part: exactly when New succeeds, the tree afterwards, and that a New that fails changes nothing. No links, permissions or other processes."
  },
  {
   "property": "C146",
   "status": "partial",
   "theorems": [
    "Rodkina.Props.C146_calls_agree_partial",
    "Rodkina.Props.C146_life_partial",
    "Rodkina.Props.C146_negation"
   ],
   "note": "False: a directory opens as an empty database, because a failing read of the reference is taken for an empty file; '.' is such a name in every application (C146_negation). Proved for all names that stand for no directory, with what Open shows and Delete leaves; and the whole life of a name of one part."
  },
  {
   "property": "C147",
   "status": "partial",
   "theorems": [
    "Rodkina.Props.C147_exact_partial",
    "Rodkina.Props.C147_no_leak_partial",
    "Rodkina.Props.C147_closes_own",
    "Rodkina.Props.C147_agrees",
    "Rodkina.Props.C147_retries_leak",
    "Rodkina.Props.C147_overwritten_leak"
   ],
   "note": "False: after a first commit that failed behind the closing of the old file every further commit fails and leaves one more file open (C147_retries_leak); a context whose identifier is given again keeps its file open for ever (C147_overwritten_leak). Proved: the exact number of open files after every history; none left by histories that avoid the two; calls close only files of contexts; agreement with the model of the database. Closing by finalizers is not modelled."
  },
  {
   "property": "C148",
   "status": "proved",
   "theorems": [
    "Rodkina.Props.C148_two_more"
   ],
   "note": "For every call that comes back (a commit in which the process stops or that never ends is not included)."
  },
  {
   "property": "C149",
   "status": "proved",
   "theorems": [
    "Rodkina.Props.C149_suites_do_not_matter"
   ],
   "note": "Trees are compared without the suites of the grammar parts they refer to."
  },
  {
   "property": "C150",
   "status": "partial",
   "theorems": [
    "Rodkina.Props.C150_reports_partial",
    "Rodkina.Props.C150_loop",
    "Rodkina.Props.C150_components",
    "Rodkina.Props.C150_negation"
   ],
   "note": "False for the names Covered reports (C150_negation): matched elements are numbered without the absent ones and the first test wins, so for an optional first element the name depends on the order of the suites. Proved: same tests and results, same ContainsError, same positions in Covered, same Uncovered report, the same from the loop in every order of the map, and that the components give suites in some order of a map. Not included: that the other application's map loops (Covered's own merge) run in other orders; they are over maps with one entry per key."
  },
  {
   "property": "C151",
   "status": "partial",
   "theorems": [
    "Rodkina.Props.C151_nesting_partial",
    "Rodkina.Props.C151_nesting_grows"
   ],
   "note": "False with references by name (C151_nesting_grows): with T: ( T ) | x every text of n brackets is accepted and needs more than n calls inside one another. Proved: (length + 1) times a number from the grammar alone when references come after something that must occur, that number alone when there are none. Left recursion has no bound at all (C45)."
  },
  {
   "property": "C152",
   "status": "partial",
   "theorems": [
    "Rodkina.Props.C152_steps_partial",
    "Rodkina.Props.C152_steps_double"
   ],
   "note": "False with references by name (C152_steps_double): S: o S a | o S b | x takes at least 2^n steps on n bytes o, one x, n bytes b, which is accepted. Proved: a polynomial for grammars without references by name. Steps are counted in a copy of the parser's functions whose outcomes are proved to be those of the model (erase_execute); copying and comparing slices counts nothing."
  },
  {
   "property": "C153",
   "status": "proved",
   "theorems": [
    "Rodkina.Props.C153_shipped_bounds"
   ],
   "note": "For every text. That the shipped grammar contains no reference by name, its depth and its width are computed by the kernel from its definition (shipped_flat, shipped_depth, shipped_width); the bounds on every text come from C151 and C152's induction over the parser. Steps as in C152."
  },
  {
   "property": "C154",
   "status": "proved",
   "theorems": [
    "Rodkina.Props.C154_steps_depth",
    "Rodkina.Props.C154_steps_guarded",
    "Rodkina.Props.C154_steps_word"
   ],
   "note": "Every grammar and input. The count does not depend on the nesting bound of the model (steps_unique), and a call of token makes at most factor calls of the next level, whatever is recorded in the map (anyRec_tokenBody)."
  },
  {
   "property": "C155",
   "status": "partial",
   "theorems": [
    "Rodkina.Props.C155_one_alternative_partial",
    "Rodkina.Props.C155_two_alternatives_partial",
    "Rodkina.Props.C155_not_all_operands",
    "Rodkina.Props.C155_reads_expressions"
   ],
   "note": "False of the code (C155_not_all_operands). Proved instead: the exact outcome of both rules on every input. E: E p x | x reads x p x where it occurs, else x, else refuses. E: E p x | E m x | x with p and m different reads x p x or x m x p x, refuses the empty input and recurses without end on every other input, the single operand among them. What is read is always an expression (C155_reads_expressions). Both parts are proved for any base and tails with channels in C157 and C158, and recursion without end for more than two alternatives in C159. Indirect left recursion of two rules is in C160. Missing: what is read with more than two left-recursive alternatives."
  },
  {
   "property": "C156",
   "status": "proved",
   "theorems": [
    "Rodkina.Props.C156_first_alternative",
    "Rodkina.Props.C156_order_matters"
   ],
   "note": "For every closed set of tokens as described (LeftSet), external grammars and channels guarded as in C45; the nesting is at most twice the bound of C45. The usual grammar of sums, terms and factors is an instance (sums_leftSet). The entry of the token under way is deleted when any inner call on that token ends, so a left-recursive alternative after a bracketed one is entered again and again (C156_order_matters)."
  },
  {
   "property": "C157",
   "status": "proved",
   "theorems": [
    "Rodkina.Props.C157_once_more",
    "Rodkina.Props.C157_never_twice"
   ],
   "note": "Against the reference interpreter of C44 (pegLines, pegSeq) for base and tail; generalises the first part of C155 from two bytes to any base and tail without references, external grammars and escapes, with channels without conditions. One would expect the tail to be read as often as it occurs: C155_not_all_operands."
  },
  {
   "property": "C158",
   "status": "proved",
   "theorems": [
    "Rodkina.Props.C158_ends_iff",
    "Rodkina.Props.C158_reads",
    "Rodkina.Props.C158_malformed"
   ],
   "note": "Generalises the second part of C155 from bytes to any tails and base without references, external grammars and escapes, with channels without conditions. The user would expect an error for malformed inputs: C158_malformed shows the recursion without end."
  },
  {
   "property": "C159",
   "status": "proved",
   "theorems": [
    "Rodkina.Props.C159_needs_last_but_one",
    "Rodkina.Props.C159_malformed"
   ],
   "note": "For any number of left-recursive alternatives from two on. Nothing is assumed of the tails before the last two, which may themselves have references, external grammars and escapes. For exactly two alternatives C158_ends_iff gives the converse too; for more the converse is not claimed."
  },
  {
   "property": "C160",
   "status": "proved",
   "theorems": [
    "Rodkina.Props.C160_ends",
    "Rodkina.Props.C160_reads",
    "Rodkina.Props.C160_not_all_pairs"
   ],
   "note": "Against the reference interpreter of C44 (pegLines, pegSeq) for the bases and tails. The usual meaning of the rules would read every round u t: C160_not_all_pairs shows the second one left over."
  },
  {
   "property": "C161",
   "status": "proved",
   "theorems": [
    "Rodkina.Props.C161_last_of_name",
    "Rodkina.Props.C161_chosen",
    "Rodkina.Props.C161_passed_over"
   ],
   "note": "Extends C44 to alternatives whose elements share names. C161_passed_over shows the difference from ordered choice: an alternative that matches the whole input is passed over for a later one."
  },
  {
   "property": "C162",
   "status": "proved",
   "theorems": [
    "Rodkina.Props.C162_names_only_compared",
    "Rodkina.Props.C162_injective_needed"
   ],
   "note": "A simulation of every step of the parser, at every nesting depth; nothing is assumed about the grammar. The grammars of external elements keep their names; C163 renames them too."
  },
  {
   "property": "C163",
   "status": "proved",
   "theorems": [
    "Rodkina.Props.C163_only_compared",
    "Rodkina.Props.C163_injective_needed"
   ],
   "note": "A simulation of every step of the parser, at every nesting depth; nothing is assumed about the grammar. The replacement is the instance argument Recoding (code for bytes, title for names), its injectivity Recoding.Faithful."
  },
  {
   "property": "C164",
   "status": "proved",
   "theorems": [
    "Rodkina.Props.C164_reports_only_compare",
    "Rodkina.Props.C164_injective_needed"
   ],
   "note": "Every function of the coverage reports commutes with the replacement, by structural induction over grammars and trees, on top of C163 for each suite. With one name for two tokens the suites of the inner one are not run."
  },
  {
   "property": "C165",
   "status": "proved",
   "theorems": [
    "Rodkina.Props.C165_queries_only_compare",
    "Rodkina.Props.C165_injective_needed"
   ],
   "note": "A simulation of every step of a query, the shared map of queries included, by induction on the nesting depth. Recoded relates the two queries."
  },
  {
   "property": "C166",
   "status": "proved",
   "theorems": [
    "Rodkina.Props.C166_names_do_not_matter",
    "Rodkina.Props.C166_apart_needed"
   ],
   "note": "Compiling commutes with replacing the keys of the maps it threads, by induction over instructions and nested instructions; the result contains no names. InstrsRenamed relates the two sources."
  },
  {
   "property": "C167",
   "status": "proved",
   "theorems": [
    "Rodkina.Props.C167_values_handed_on",
    "Rodkina.Props.C167_modules_must_agree"
   ],
   "note": "Both programs come from one program whose modules are stand-ins; compiling and executing commute with putting modules in their place, by induction over instructions, values, applications and attachments. Follows is asked only of the given modules."
  },
  {
   "property": "C168",
   "status": "proved",
   "theorems": [
    "Rodkina.Props.C168_only_mentioned_modules",
    "Rodkina.Props.C168_order",
    "Rodkina.Props.C168_order_needed"
   ],
   "note": "Compiling asks for modules by the indexes in the text only, by induction over (nested) instructions."
  },
  {
   "property": "C169",
   "status": "proved",
   "theorems": [
    "Rodkina.Props.C169_more_inputs",
    "Rodkina.Props.C169_missing_needed"
   ],
   "note": "By induction over programs, values, applications and attachments: with more inputs an execution either lacked an input before or does the same."
  }
 ]
}