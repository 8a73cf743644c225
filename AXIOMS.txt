Ctx.C01_constructor_rejects: propext, Classical.choice, Quot.sound
Ctx.C01_constructor_stores: propext, Classical.choice, Quot.sound
Ctx.C01_wf: propext, Classical.choice, Quot.sound
Ctx.C02_distinct_violated: propext, Classical.choice, Quot.sound
Ctx.C02_distinct_partial: propext, Classical.choice, Quot.sound
Ctx.C02_distinct_kept: propext, Classical.choice, Quot.sound
Ctx.C02_at_most_twice: propext, Classical.choice, Quot.sound
Ctx.C02_own_suffix_partial: propext, Classical.choice, Quot.sound
Ctx.C03_histories: propext, Classical.choice, Quot.sound
Ctx.C03_start: propext, Classical.choice, Quot.sound
Ctx.C03_legal_returns: propext, Classical.choice, Quot.sound
Ctx.C03_failed_unchanged: propext, Classical.choice, Quot.sound
Ctx.C03_illegal_raises: propext, Classical.choice, Quot.sound
Ctx.C04_views_partial: propext, Classical.choice, Quot.sound
Ctx.C04_pairs_order: propext, Classical.choice, Quot.sound
Ctx.C04_shape: propext
Ctx.C04_unknown: propext, Classical.choice, Quot.sound
Ctx.C04_views_violated: propext, Classical.choice, Quot.sound
Ctx.C05_primes: propext, Classical.choice, Quot.sound
Ctx.C05_co_primes_partial: propext, Classical.choice, Quot.sound
Ctx.C05_unknown: propext, Classical.choice, Quot.sound
Ctx.C05_co_primes_violated: propext, Classical.choice, Quot.sound
Ctx.C06_aclosure: propext, Classical.choice, Quot.sound
Ctx.C06_oclosure: propext, Classical.choice, Quot.sound
Ctx.C06_agree_partial: propext, Classical.choice, Quot.sound
Ctx.C06_agree_violated: propext, Classical.choice, Quot.sound
Ctx.C07_transpose: propext, Classical.choice, Quot.sound
Ctx.C07_involution: propext, Classical.choice, Quot.sound
Ctx.C08_mul_no_middle: propext, Classical.choice, Quot.sound
Ctx.C08_mul_rejects: propext, Classical.choice, Quot.sound
Ctx.C08_mul_partial: propext, Classical.choice, Quot.sound
Ctx.C08_mul_violated: propext, Classical.choice, Quot.sound
Ctx.C09_permuted_equal: propext, Classical.choice, Quot.sound
Ctx.C09_equal_same_partial: propext, Classical.choice, Quot.sound
Ctx.C09_equal_same_violated: propext, Classical.choice, Quot.sound
Ctx.C10_clarify: propext, Classical.choice, Quot.sound
Ctx.C11_reduce_objects: propext, Classical.choice, Quot.sound
Ctx.C11_reduce_attributes: propext, Classical.choice, Quot.sound
Ctx.C11_machine: propext, Classical.choice, Quot.sound
Ctx.C11_machine_attributes: propext, Classical.choice, Quot.sound
Ctx.C12_exact: propext, Classical.choice, Quot.sound
Ctx.C12_iff: propext, Classical.choice, Quot.sound
Ctx.C12_complete_violated: propext, Classical.choice, Quot.sound
Ctx.C12_complete_partial: propext, Classical.choice, Quot.sound
Ctx.C13_codes_partial: propext, Classical.choice, Quot.sound
Ctx.C13_code_exact: propext, Classical.choice, Quot.sound
Ctx.C13_codes_violated: propext, Quot.sound
Ctx.C11_wide_violated: propext, Classical.choice, Quot.sound
Ctx.C14_complementary: propext, Classical.choice, Quot.sound
Ctx.C15_compound_violated: propext, Classical.choice, Quot.sound
Ctx.C15_compound_partial: propext, Classical.choice, Quot.sound
Ctx.C16_subcontext: propext, Classical.choice, Quot.sound
Ctx.C16_filtered: propext, Classical.choice, Quot.sound
Ctx.C16_mode: propext, Classical.choice, Quot.sound
Ctx.C17_remove_empty: propext, Classical.choice, Quot.sound
Ctx.C18_associative_aclosure: propext, Classical.choice, Quot.sound
Ctx.C18_associative_aprime: propext, Classical.choice, Quot.sound
C19_is_respected_iff: propext, Classical.choice, Quot.sound
C19_is_respected_partial_example: propext, Classical.choice, Quot.sound
C19_eq_respected: propext, Classical.choice, Quot.sound
C19_eq_iff_semantic: propext, Classical.choice, Quot.sound
C20_simple_closure: propext, Classical.choice, Quot.sound
C20_simple_closure_terminates: propext, Classical.choice, Quot.sound
C21_exact: propext, Classical.choice, Quot.sound
C21_order_independent: propext, Classical.choice, Quot.sound
C21_iff: propext, Classical.choice, Quot.sound
C21_lin_closure_partial: propext, Classical.choice, Quot.sound
C21_lin_closure_terminates: propext, Classical.choice, Quot.sound
C21_lin_closure_upper: propext, Classical.choice, Quot.sound
C21_lin_closure_duplicates_violated: propext, Classical.choice, Quot.sound
C22_closure: propext, Classical.choice, Quot.sound
C22_closure_terminates: propext, Classical.choice, Quot.sound
Imp.C23_round_trip_partial: propext, Classical.choice, Quot.sound
Imp.C23_round_trip_violated: propext, Classical.choice, Quot.sound
Imp.C23_one_arrow: propext, Classical.choice, Quot.sound
Imp.C23_malformed: propext, Classical.choice, Quot.sound
Ctx.C24_basis_sound: propext, Classical.choice, Quot.sound
Ctx.C24_basis_returns: propext, Classical.choice, Quot.sound
Ctx.C25_basis_closure: propext, Classical.choice, Quot.sound
Ctx.C25_basis_complete: propext, Classical.choice, Quot.sound
Ctx.C25_repeated_background_violated: propext, Classical.choice, Quot.sound
Ctx.C25_objectfree_background_violated: propext, Classical.choice, Quot.sound
Ctx.C154_iff: propext, Classical.choice, Quot.sound
Ctx.C26_basis_pseudo_intents: propext, Classical.choice, Quot.sound
Ctx.C27_basis_minimal: propext, Classical.choice, Quot.sound
Ctx.C27_basis_irredundant: propext, Classical.choice, Quot.sound
Ctx.C28_basis_terminates: propext, Classical.choice, Quot.sound
Ctx.C29_iterator_eq_list: propext, Classical.choice, Quot.sound
Ctx.C30_lin_eq_simple: propext, Classical.choice, Quot.sound
C31_default_raises_violated: propext, Classical.choice, Quot.sound
C31_first_call_partial: propext, Classical.choice, Quot.sound
C31_stale_violated: propext, Classical.choice, Quot.sound
C32_canonical_sound_complete: propext, Classical.choice, Quot.sound
C32_cpython_sound_complete: propext, Classical.choice, Quot.sound
C32_canonical_partial: propext, Classical.choice, Quot.sound
C32_canonical_simple_partial: propext, Classical.choice, Quot.sound
C32_incremental_eq_dg_partial: propext, Classical.choice, Quot.sound
C32_canonical_violated: propext, Classical.choice, Quot.sound
C32_objectfree_violated: propext, Classical.choice, Quot.sound
C33_transparent_partial: propext, Classical.choice, Quot.sound
C33_unmodified_partial: propext, Classical.choice, Quot.sound
C33_stale_violated: propext, Classical.choice, Quot.sound
C34_norris: propext, Classical.choice, Quot.sound
C35_iterator: propext, Classical.choice, Quot.sound
C36_covering: propext, Classical.choice, Quot.sound
C37_top_bottom: propext, Classical.choice, Quot.sound
C37_system: propext, Classical.choice, Quot.sound
C38_parents_children: propext, Classical.choice, Quot.sound
C39_navigation_violated: propext, Classical.choice, Quot.sound
C39_navigation_partial: propext, Classical.choice, Quot.sound
CSys.C40_histories: propext, Classical.choice, Quot.sound
C41_istability: propext, Classical.choice, Quot.sound
C42_estability: propext, Classical.choice, Quot.sound
C43_separation_partial: propext, Classical.choice, Quot.sound
C43_separation_violated: propext, Classical.choice, Quot.sound
C44_sizes: propext, Classical.choice, Quot.sound
C45_filter_violated: propext, Quot.sound
C45_filter_partial: propext, Quot.sound
C45_value_istability: propext, Classical.choice, Quot.sound
C46_factors_are_concepts: propext, Classical.choice, Quot.sound
C47_exact_cover: propext, Classical.choice, Quot.sound
C48_coverage: propext, Classical.choice, Quot.sound
C48_no_cross: propext, Classical.choice, Quot.sound
C49_factor_contexts: propext, Classical.choice, Quot.sound
C49_rebuild: propext, Classical.choice, Quot.sound
C50_weighted_violated: propext, Classical.choice, Quot.sound
C50_weighted_partial: propext, Classical.choice, Quot.sound
C50_yields_partial: propext, Classical.choice, Quot.sound
C51_conditions: propext, Classical.choice, Quot.sound
C52_cover_sound: propext, Classical.choice, Quot.sound
C53_cover_complete: propext, Classical.choice, Quot.sound
C54_minimize: propext, Classical.choice, Quot.sound
C54_is_redundant: propext, Classical.choice, Quot.sound
C54_cover_minimized: propext, Classical.choice, Quot.sound
C55_attribute_side_partial: propext, Classical.choice, Quot.sound
C55_object_side_partial: propext, Classical.choice, Quot.sound
C55_confirmed_stay_valid_violated: propext, Classical.choice, Quot.sound
C55_colliding_name_violated: propext, Classical.choice, Quot.sound
C56_attr_rejected: propext, Classical.choice, Quot.sound
C56_attr_accepted: propext, Classical.choice, Quot.sound
C56_attr_accepted_any_name: propext, Classical.choice, Quot.sound
C56_obj_rejected: propext, Classical.choice, Quot.sound
C56_obj_accepted: propext, Classical.choice, Quot.sound
C56_index: propext, Classical.choice, Quot.sound
C57_background_valid_partial: propext, Classical.choice, Quot.sound
C57_open_basis_partial: propext, Classical.choice, Quot.sound
C57_raising_unchanged_partial: propext, Classical.choice, Quot.sound
C57_open_basis_repeated: propext, Classical.choice, Quot.sound
C57_stale_open_implications_violated: propext, Classical.choice, Quot.sound
C58_finished_complete: propext, Classical.choice, Quot.sound
C58_finished_repeated_partial: propext, Classical.choice, Quot.sound
C58_repeated_violated: propext, Classical.choice, Quot.sound
C59_truthful_expert: propext, Classical.choice, Quot.sound
C60_last_session_partial: propext, Classical.choice, Quot.sound
C60_single_session_partial: propext, Classical.choice, Quot.sound
C60_reject: propext, Classical.choice, Quot.sound
C60_add_object: propext, Classical.choice, Quot.sound
C60_two_sessions_violated: propext, Classical.choice, Quot.sound
C61_confirm_exact: propext, Classical.choice, Quot.sound
C61_confirmed_patterns_partial: propext, Classical.choice, Quot.sound
C61_negative_example_violated: propext, Classical.choice, Quot.sound
C62_unexplained: propext, Classical.choice, Quot.sound
C62_explained_monotone: propext, Classical.choice, Quot.sound
C62_examples: propext, Classical.choice, Quot.sound
C63_scaling_cells: propext, Classical.choice, Quot.sound
C63_scaling: propext, Classical.choice, Quot.sound
C63_returns: propext, Classical.choice, Quot.sound
C64_ordinal: propext, Classical.choice, Quot.sound
C64_nominal: propext, Classical.choice, Quot.sound
C64_ordinal_applied: propext, Classical.choice, Quot.sound
C65_truth_values_partial: propext, Classical.choice, Quot.sound
C65_values_violated: propext, Classical.choice, Quot.sound
C66_round_trip_partial: propext, Classical.choice, Quot.sound
C66_exact: propext, Classical.choice, Quot.sound
C66_iff: propext, Classical.choice, Quot.sound
C66_strings: propext, Classical.choice, Quot.sound
C66_eval_raises_violated: propext, Classical.choice, Quot.sound
C66_numeric_name_violated: propext, Classical.choice, Quot.sound
C67_read_back_partial: propext, Classical.choice, Quot.sound
C67_object_named_zero_violated: propext, Classical.choice, Quot.sound
C68_objects: propext, Classical.choice, Quot.sound
C68_attributes: propext, Classical.choice, Quot.sound
C68_only_names: propext, Classical.choice, Quot.sound
C69_fimi: propext, Classical.choice, Quot.sound
C69_unambiguous: propext, Quot.sound
C69_intents_determined: propext, Classical.choice, Quot.sound
C70_constructor_violated: propext, Classical.choice, Quot.sound
C70_constructor_partial: propext, Classical.choice, Quot.sound
C70_constructor_shapes: propext, Classical.choice, Quot.sound
C70_transpose_violated: propext, Classical.choice, Quot.sound
C70_transpose_partial: propext, Classical.choice, Quot.sound
C71_sound: propext, Classical.choice, Quot.sound
C71_empty_complete: propext, Classical.choice, Quot.sound
C72_condition_fidelity_violated: propext, Classical.choice, Quot.sound
C72_condition_fidelity_partial: propext, Classical.choice, Quot.sound
C73_cover_direct: propext, Classical.choice, Quot.sound
C74_open_and_confirmed_complete: propext, Classical.choice, Quot.sound
C74_finished: propext, Classical.choice, Quot.sound
C75_edit_and_delete_raise: propext, Classical.choice, Quot.sound
C76_no_candidates_complete: propext, Classical.choice, Quot.sound
C76_candidates_new: propext, Classical.choice, Quot.sound
C77_positive_concepts: propext, Classical.choice, Quot.sound
C77_pairs_partial: propext, Classical.choice, Quot.sound
C77_default_generator_violated: propext, Classical.choice, Quot.sound
C77_default_generator_raises_violated: propext, Classical.choice, Quot.sound
C78_uread_violated: propext, Classical.choice, Quot.sound
C79_edges: propext, Classical.choice, Quot.sound
C80_complete: propext, Classical.choice, Quot.sound
C80_inconsistent: propext, Classical.choice, Quot.sound
C80_after_answer: propext, Classical.choice, Quot.sound
C81_histories_partial: propext, Classical.choice, Quot.sound
C81_duplicate_name_violated: propext, Classical.choice, Quot.sound
C82_incomplete_violated: propext, Classical.choice, Quot.sound
C82_idempotent_partial: propext, Classical.choice, Quot.sound
C83_finished_complete: propext, Classical.choice, Quot.sound
C83_answers_accepted: propext, Classical.choice, Quot.sound
C84_terminates: propext, Classical.choice, Quot.sound
C85_stale_violated: propext, Classical.choice, Quot.sound
C85_open_partial: propext, Classical.choice, Quot.sound
C86_compute_index: propext, Classical.choice, Quot.sound
KImp.C87_negative_exact: propext, Classical.choice, Quot.sound
KImp.C87_negative_partial: propext, Classical.choice, Quot.sound
KImp.C87_negative_violated: propext, Classical.choice, Quot.sound
KImp.C87_negative_partial_example: propext, Classical.choice, Quot.sound
KImp.C87_partial_example_violated: propext, Classical.choice, Quot.sound
KImp.C87_plain_partial_example: propext, Classical.choice, Quot.sound
KImp.C88_unit_partial: propext, Classical.choice, Quot.sound
KImp.C88_unit_violated: propext, Classical.choice, Quot.sound
KImp.C89_equal_same_answers_partial: propext, Classical.choice, Quot.sound
KImp.C89_mixed_equality_violated: propext, Classical.choice, Quot.sound
KImp.C89_deepcopy_partial: propext, Classical.choice, Quot.sound
KImp.C89_deepcopy_violated: propext, Classical.choice, Quot.sound
KImp.C89_negative_hash_violated: propext, Classical.choice, Quot.sound
KImp.C89_negative_text_violated: propext, Classical.choice, Quot.sound
C90_probability: propext, Classical.choice, Quot.sound
C90_bounds: propext, Classical.choice, Quot.sound
C90_objectfree_violated: propext, Classical.choice, Quot.sound
C91_prime_partial: propext, Classical.choice, Quot.sound
C91_prime_violated: propext, Quot.sound
C91_factorial: propext, Classical.choice, Quot.sound
C91_divisible: propext, Classical.choice, Quot.sound
C92_explore: propext, Classical.choice, Quot.sound
C92_numbers: propext, Classical.choice, Quot.sound
C93_condition_contains: propext, Classical.choice, Quot.sound
C93_hereditary_partial: propext, Classical.choice, Quot.sound
C93_orbits: propext, Classical.choice, Quot.sound
C93_filter_violated: propext, Classical.choice, Quot.sound
C94_intent: propext, Classical.choice, Quot.sound
C94_implication: propext, Classical.choice, Quot.sound
C94_orbit_maximal: propext, Classical.choice, Quot.sound
C94_equality_partial: propext
C94_equality_violated: propext
C95_closed_iff: propext, Classical.choice, Quot.sound
C95_entails: propext, Classical.choice, Quot.sound
C95_sound: propext, Classical.choice, Quot.sound
C96_examples: propext, Classical.choice, Quot.sound
C96_find: propext, Classical.choice, Quot.sound
C96_partial: propext, Classical.choice, Quot.sound
C96_context_violated: propext, Classical.choice, Quot.sound
C97_orbit_complete: propext, Classical.choice, Quot.sound
C97_biunars: propext, Classical.choice, Quot.sound
C97_biunars_progress: propext, Classical.choice, Quot.sound
Mv.C98_add_object_violated: propext, Classical.choice, Quot.sound
Mv.C98_histories_partial: propext, Classical.choice, Quot.sound
Mv.C98_legal_returns: propext, Classical.choice, Quot.sound
Mv.C98_failed_unchanged: propext, Classical.choice, Quot.sound
Mv.C98_deepcopy: propext, Classical.choice, Quot.sound
Mv.C99_subcontext: propext, Classical.choice, Quot.sound
Mv.C99_condition: propext, Classical.choice, Quot.sound
Mv.C99_values_partial: propext, Classical.choice, Quot.sound
Mv.C99_values_violated: propext, Classical.choice, Quot.sound
Csv.C100_binary_mode_violated: propext, Classical.choice, Quot.sound
Csv.C100_read_txt_partial: propext, Classical.choice, Quot.sound
Csv.C100_read_mv_txt_partial: propext, Classical.choice, Quot.sound
Csv.C100_read_csv_partial: propext, Classical.choice, Quot.sound
Csv.C100_uread_text_mode_violated: propext, Classical.choice, Quot.sound
Csv.C100_trailing_tabs_partial: propext, Classical.choice, Quot.sound
Csv.C100_csv_empty_line_partial: propext, Classical.choice, Quot.sound
Csv.C101_content: propext, Quot.sound
Csv.C101_injective: propext, Classical.choice, Quot.sound
Csv.C101_read_back_violated: propext, Classical.choice, Quot.sound
Csv.C101_uwrite_violated: none
Xml.C102_write_violated: propext, Classical.choice, Quot.sound
Xml.C102_read_violated: propext, Classical.choice, Quot.sound
Xml.C102_handlers_partial: propext, Classical.choice, Quot.sound
Xml.C102_pieces_violated: propext, Classical.choice, Quot.sound
Xml.C102_bad_reference: propext, Classical.choice, Quot.sound
Xml.C102_bad_meta: propext, Classical.choice, Quot.sound
Xml.C102_document_ids: propext, Classical.choice, Quot.sound
C103_write_dot: propext, Classical.choice, Quot.sound
C103_uwrite_dot: propext, Classical.choice, Quot.sound
C103_counts: propext, Classical.choice, Quot.sound
C103_escape_violated: propext, Classical.choice, Quot.sound
C104_reports_partial: propext, Classical.choice, Quot.sound
C104_exact_partial: propext, Classical.choice, Quot.sound
C104_no_exception_partial: propext, Classical.choice, Quot.sound
C104_stuck_violated: propext, Classical.choice, Quot.sound
C104_coverage_violated: propext, Classical.choice, Quot.sound
C105_reach: propext, Classical.choice, Quot.sound
C105_order: propext, Classical.choice, Quot.sound
C105_context: propext, Classical.choice, Quot.sound
C105_determined: propext, Classical.choice, Quot.sound
C105_bounds: propext, Classical.choice, Quot.sound
C106_lookup: propext, Classical.choice, Quot.sound
csGetItem_cases: propext, Quot.sound
C106_histories: propext, Classical.choice, Quot.sound
C106_other_arguments: propext, Classical.choice, Quot.sound
C106_outcomes: propext, Classical.choice, Quot.sound
C106_str: propext, Quot.sound
C107_live_exact: propext, Classical.choice, Quot.sound
C107_live_violated: propext, Classical.choice, Quot.sound
C107_done_partial: propext, Classical.choice, Quot.sound
C108_context: propext, Classical.choice, Quot.sound
C108_distribution: propext, Classical.choice, Quot.sound
compareTuples_iff: propext, Classical.choice, Quot.sound
C109_compare: propext, Classical.choice, Quot.sound
Ctx.C110_sound: propext, Classical.choice, Quot.sound
Ctx.C110_complete: propext, Classical.choice, Quot.sound
Ctx.C110_unrefuted: propext, Classical.choice, Quot.sound
Ctx.C110_adding: propext, Classical.choice, Quot.sound
Ctx.C110_accepted_violated: propext, Classical.choice, Quot.sound
C111_insert: propext, Classical.choice, Quot.sound
C111_plus_violated: propext, Classical.choice, Quot.sound
C111_plus_partial: propext, Classical.choice, Quot.sound
PCtx.C112_repr: propext, Classical.choice, Quot.sound
PCtx.C112_repr_injective: propext, Classical.choice, Quot.sound
PCtx.C112_intents: propext, Classical.choice, Quot.sound
PCtx.C113_deepcopy_violated: propext, Classical.choice, Quot.sound
PCtx.C113_deepcopy_partial: propext, Classical.choice, Quot.sound
PCtx.C113_deepcopy_shapes: propext, Classical.choice, Quot.sound
Ctx.C114_delete: propext, Classical.choice, Quot.sound
Ctx.C114_unknown: propext, Classical.choice, Quot.sound
Ctx.C114_repeated_violated: propext, Classical.choice, Quot.sound
PDB.C115_reject_stops: propext, Classical.choice, Quot.sound
CObj.C116_consistent: propext, Classical.choice, Quot.sound
CObj.C116_atomic: propext, Classical.choice, Quot.sound
CObj.C116_refines: propext, Classical.choice, Quot.sound
CObj.C116_repeated_violated: propext, Classical.choice, Quot.sound
Ctx.C117_intent: propext, Classical.choice, Quot.sound
Ctx.C117_extent: propext, Classical.choice, Quot.sound
Ctx.C117_by_index_outside: propext, Classical.choice, Quot.sound
Ctx.C117_oprime_inds: propext, Classical.choice, Quot.sound
Ctx.C117_aprime_inds: propext, Classical.choice, Quot.sound
Ctx.C117_oclosure_inds: propext, Classical.choice, Quot.sound
Ctx.C117_aclosure_inds: propext, Classical.choice, Quot.sound
Ctx.C117_nat: propext, Classical.choice, Quot.sound
Ctx.C117_first_outside_violated: propext, Quot.sound
Ctx.C117_later_outside_partial: propext, Classical.choice, Quot.sound
CsvReader.C118_read_back: propext, Classical.choice, Quot.sound
CsvReader.C118_quoted_name_violated: propext, Classical.choice, Quot.sound
CsvReader.C118_unclosed_violated: propext, Classical.choice, Quot.sound
CsvReader.C118_too_long: propext, Classical.choice, Quot.sound
CsvReader.C118_simple_model: propext, Classical.choice, Quot.sound
C119_layout: propext, Classical.choice, Quot.sound
C119_line_endings: propext, Classical.choice, Quot.sound
C119_final_newline: propext, Classical.choice, Quot.sound
C119_not_cxt: propext, Classical.choice, Quot.sound
C119_bad_number: propext, Classical.choice, Quot.sound
pyInt_iff: propext, Quot.sound
pySpace_eq: propext, Classical.choice, Quot.sound
Ctx.C120_iterator: propext, Classical.choice, Quot.sound
Ctx.C120_histories: propext, Classical.choice, Quot.sound
Ctx.C120_early_violated: propext, Classical.choice, Quot.sound
Ctx.C120_rename_violated: propext, Classical.choice, Quot.sound
Ctx.C120_delete_violated: propext, Classical.choice, Quot.sound
CObj.C121_cells: propext, Classical.choice, Quot.sound
CObj.C121_stale_eq: propext, Classical.choice, Quot.sound
CObj.C121_eq_violated: propext, Classical.choice, Quot.sound
CObj.eq_of: propext, Classical.choice, Quot.sound
CObj.C122_names_partial: propext, Classical.choice, Quot.sound
CObj.C122_names_violated: propext, Classical.choice, Quot.sound
CObj.C122_append_violated: propext, Classical.choice, Quot.sound
CObj.C122_append_delete_violated: propext, Classical.choice, Quot.sound
CObj.C123_loop: propext, Classical.choice, Quot.sound
CObj.C123_skipped_violated: propext, Classical.choice, Quot.sound
CObj.C123_loop_partial: propext, Classical.choice, Quot.sound
CObj.C123_copy: propext, Classical.choice, Quot.sound
Ctx.C124_product: propext, Classical.choice, Quot.sound
Ctx.C124_approximate: propext, Classical.choice, Quot.sound
Ctx.C124_product_violated: propext, Classical.choice, Quot.sound
C125_same_closure: propext, Classical.choice, Quot.sound
C125_sound_complete: propext, Classical.choice, Quot.sound
C125_lin_closure: propext, Classical.choice, Quot.sound
C125_length_partial: propext, Classical.choice, Quot.sound
C125_length_violated: propext, Classical.choice, Quot.sound
C126_sorted: propext, Classical.choice, Quot.sound
C126_concept_text: propext, Classical.choice, Quot.sound
C126_imp_text: propext, Classical.choice, Quot.sound
Ctx.C126_lattice: propext, Classical.choice, Quot.sound
Ctx.C126_closures: propext, Classical.choice, Quot.sound
Ctx.C126_basis: propext, Classical.choice, Quot.sound
Ctx.C126_renamed: propext, Classical.choice, Quot.sound
Ctx.C127_complementary: propext, Classical.choice, Quot.sound
Ctx.C127_compound: propext, Classical.choice, Quot.sound
C127_uwrite_cxt: propext, Quot.sound
C127_write_mv_txt: propext, Quot.sound
C127_write_dot: propext, Classical.choice, Quot.sound
C127_uwrite_dot: propext, Classical.choice, Quot.sound
C127_lattice_dot: propext, Classical.choice, Quot.sound
C127_scaling: propext, Classical.choice, Quot.sound
C127_cxt_integers: propext, Classical.choice, Quot.sound
C127_strings: propext, Classical.choice, Quot.sound
C127_strings_uwrite_dot: propext, Classical.choice, Quot.sound
Ctx.C128_result: propext, Classical.choice, Quot.sound
Ctx.C128_cond: propext, Classical.choice, Quot.sound
Ctx.C128_calls: propext, Classical.choice, Quot.sound
Ctx.C128_count: propext, Classical.choice, Quot.sound
Ctx.C128_bound: propext, Classical.choice, Quot.sound
Ctx.C129_add_object: propext, Classical.choice, Quot.sound
Ctx.C129_add_attribute: propext, Classical.choice, Quot.sound
Ctx.C129_delete_object: propext, Classical.choice, Quot.sound
Ctx.C129_delete_attribute: propext, Classical.choice, Quot.sound
Ctx.C129_transpose: propext, Classical.choice, Quot.sound
Ctx.C129_bound: propext, Classical.choice, Quot.sound
Ctx.C129_full: propext, Classical.choice, Quot.sound
Ctx.C129_attained: propext, Classical.choice, Quot.sound
Cover.C130_premises: propext, Classical.choice, Quot.sound
Cover.C130_canonical: propext, Classical.choice, Quot.sound
Cover.C130_minimize_full: propext, Classical.choice, Quot.sound
Cover.C130_minimum: propext, Classical.choice, Quot.sound
Cover.C130_minimum_violated: propext, Classical.choice, Quot.sound
Ctx.C131_same_intents: propext, Classical.choice, Quot.sound
Ctx.C131_same_list: propext, Classical.choice, Quot.sound
Ctx.C131_same_rows: propext, Classical.choice, Quot.sound
Ctx.C131_same_relation: propext, Classical.choice, Quot.sound
Ctx.C131_clarify: propext, Classical.choice, Quot.sound
Ctx.C131_reduce: propext, Classical.choice, Quot.sound
Ctx.C132_istability: propext, Classical.choice, Quot.sound
Ctx.C132_estability: propext, Classical.choice, Quot.sound
Ctx.C132_transpose: propext, Classical.choice, Quot.sound
Ctx.C133_basic_theorem: propext, Classical.choice, Quot.sound
Ctx.C133_converse: propext, Classical.choice, Quot.sound
Ctx.C133_every_lattice: propext, Classical.choice, Quot.sound
Ctx.C133_ordinal: propext, Classical.choice, Quot.sound
Ctx.C133_nominal: propext, Classical.choice, Quot.sound
C134_locally_best: propext, Classical.choice, Quot.sound
C134_any_concept: propext, Classical.choice, Quot.sound
C134_share: propext, Classical.choice, Quot.sound
C134_geometric: propext, Classical.choice, Quot.sound
C134_number: propext, Classical.choice, Quot.sound
C135_optimal_violated: propext, Classical.choice, Quot.sound
C135_attributes_violated: propext, Classical.choice, Quot.sound
C135_decreasing_violated: propext, Classical.choice, Quot.sound
C135_one_partial: propext, Classical.choice, Quot.sound
C136_exploration: propext, Classical.choice, Quot.sound
C136_command_line: propext, Classical.choice, Quot.sound
C136_numbers: propext, Classical.choice, Quot.sound
Ctx.C137_one_child: propext, Classical.choice, Quot.sound
Ctx.C137_objects: propext, Classical.choice, Quot.sound
Ctx.C137_attributes: propext, Classical.choice, Quot.sound
Ctx.C137_reduced: propext, Classical.choice, Quot.sound
Ctx.C137_unique: propext, Classical.choice, Quot.sound
Ctx.C137_same_lattice: propext, Classical.choice, Quot.sound
Ctx.C137_normal_form: propext, Classical.choice, Quot.sound
Ctx.C138_associative: propext, Classical.choice, Quot.sound
Ctx.C138_transpose: propext, Classical.choice, Quot.sound
Ctx.C138_identity: propext, Classical.choice, Quot.sound
Ctx.C138_factors: propext, Classical.choice, Quot.sound
Ctx.C138_decomposition: propext, Classical.choice, Quot.sound
EDB.C139_confirm_calls: propext, Classical.choice, Quot.sound
EDB.C139_any_order: propext, Classical.choice, Quot.sound
EDB.C139_more: propext, Classical.choice, Quot.sound
C139_sessions: propext, Classical.choice, Quot.sound
Ctx.C140_exact: propext, Classical.choice, Quot.sound
Ctx.C140_equivalence_partial: propext, Classical.choice, Quot.sound
Ctx.C140_transitive_violated: propext, Classical.choice, Quot.sound
PyObj.C140_classes: propext, Classical.choice, Quot.sound
PyObj.C140_contains: propext, Classical.choice, Quot.sound
C141_extents: propext, Classical.choice, Quot.sound
C141_count: propext, Classical.choice, Quot.sound
C141_ordinal: propext, Classical.choice, Quot.sound
C141_nominal: propext, Classical.choice, Quot.sound
Ctx.C142_add_object: propext, Classical.choice, Quot.sound
Ctx.C142_delete_object: propext, Classical.choice, Quot.sound
Ctx.C142_add_attribute: propext, Classical.choice, Quot.sound
Ctx.C142_delete_attribute: propext, Classical.choice, Quot.sound
Ctx.C142_rename_attribute: propext, Classical.choice, Quot.sound
C143_truthful_calls_succeed: propext, Classical.choice, Quot.sound
C143_answer_exists: propext, Classical.choice, Quot.sound
C143_ends: propext, Classical.choice, Quot.sound
C143_attribute_theory: propext, Classical.choice, Quot.sound
C143_object_theory: propext, Classical.choice, Quot.sound
C144_messages_tell: propext, Classical.choice, Quot.sound
C144_messages_exist: propext, Classical.choice, Quot.sound
C144_multiplication_violated: propext, Classical.choice, Quot.sound
C144_exploration_text: propext, Classical.choice, Quot.sound
C144_exploration_text_exists: propext, Classical.choice, Quot.sound
Ctx.C145_concepts: propext, Classical.choice, Quot.sound
Ctx.C145_neighbours: propext, Classical.choice, Quot.sound
Ctx.C145_stability: propext, Classical.choice, Quot.sound
Ctx.C145_sizes: propext, Classical.choice, Quot.sound
Ctx.C145_separation: propext, Classical.choice, Quot.sound
Ctx.C146_subcontext: propext, Classical.choice, Quot.sound
Ctx.C146_filtered_and: propext, Classical.choice, Quot.sound
Ctx.C146_filtered_or: propext, Classical.choice, Quot.sound
Ctx.C146_remove_empty: propext, Classical.choice, Quot.sound
Ctx.C146_reduce_attributes: propext, Classical.choice, Quot.sound
Cover.C147_values: propext, Classical.choice, Quot.sound
Cover.C147_other_list: propext, Classical.choice, Quot.sound
Cover.C147_repeated: propext, Classical.choice, Quot.sound
Cover.C147_repeated_violated: propext, Classical.choice, Quot.sound
Cover.C147_part_violated: propext, Classical.choice, Quot.sound
AIObj.C148_values: propext, Classical.choice, Quot.sound
AIObj.C148_fresh: propext, Classical.choice, Quot.sound
AIObj.C148_sound_complete: propext, Classical.choice, Quot.sound
C149_indices: propext, Classical.choice, Quot.sound
C149_values: propext, Classical.choice, Quot.sound
C149_threshold: propext, Classical.choice, Quot.sound
C149_again: propext, Classical.choice, Quot.sound
C149_context_violated: propext, Classical.choice, Quot.sound
C149_istability_down: propext, Classical.choice, Quot.sound
C149_estability_up: propext, Classical.choice, Quot.sound
C149_iceberg: propext, Classical.choice, Quot.sound
C149_iceberg_dual: propext, Classical.choice, Quot.sound
C149_negative_violated: propext, Classical.choice, Quot.sound
C150_simple: propext, Classical.choice, Quot.sound
C150_lin: propext, Classical.choice, Quot.sound
C150_lin_bound: propext, Classical.choice, Quot.sound
C150_quadratic: propext, Classical.choice, Quot.sound
C150_norris: propext, Classical.choice, Quot.sound
C151_norris: propext, Classical.choice, Quot.sound
C151_lattice: propext, Classical.choice, Quot.sound
C151_basis: propext, Classical.choice, Quot.sound
C151_merged_names_violated: propext, Classical.choice, Quot.sound
C152_session: propext, Classical.choice, Quot.sound
C152_experts_agree: propext, Classical.choice, Quot.sound
PExp.listExpert_honest: propext, Classical.choice, Quot.sound
PExp.firstExpert_honest: propext, Classical.choice, Quot.sound
C152_no_expert_violated: propext, Classical.choice, Quot.sound
C152_silent_expert_violated: propext, Classical.choice, Quot.sound
C153_rounds: propext, Classical.choice, Quot.sound
C153_together_violated: propext, Classical.choice, Quot.sound
Ctx.C154_exact: propext, Classical.choice, Quot.sound
Ctx.C154_simple: propext, Classical.choice, Quot.sound
Ctx.C154_complete: propext, Classical.choice, Quot.sound
Ctx.C154_small: propext, Classical.choice, Quot.sound
C155_shared_valid: propext, Classical.choice, Quot.sound
C155_shared_open: propext, Classical.choice, Quot.sound
C155_touch: propext, Classical.choice, Quot.sound
C155_stale_violated: propext, Classical.choice, Quot.sound
C155_own_lists_violated: propext, Classical.choice, Quot.sound
BExp.C156_out_of_range: propext, Classical.choice, Quot.sound
BExp.C156_confirm: propext, Classical.choice, Quot.sound
BExp.C156_call: propext, Classical.choice, Quot.sound
BExp.C156_histories: propext, Classical.choice, Quot.sound
BExp.C156_last: propext, Classical.choice, Quot.sound
E2W.C157_frame: propext, Classical.choice, Quot.sound
E2W.C157_valid: propext, Classical.choice, Quot.sound
E2W.C157_original_raises: propext, Classical.choice, Quot.sound
E2W.C157_add_object: propext, Classical.choice, Quot.sound
E2W.C157_single: propext, Classical.choice, Quot.sound
E2W.C157_set_context_violated: propext, Classical.choice, Quot.sound
DGObj.C158_values: propext, Classical.choice, Quot.sound
DGObj.C158_context: propext, Classical.choice, Quot.sound
DGObj.C158_shared_violated: propext, Classical.choice, Quot.sound
DGObj.simpleO_works: propext, Classical.choice, Quot.sound
DGObj.linO_works: propext, Classical.choice, Quot.sound
CWorld.C159_self: propext, Classical.choice, Quot.sound
CWorld.C159_programs: propext, Classical.choice, Quot.sound
CWorld.C159_answers: propext, Classical.choice, Quot.sound
CWorld.C159_deepcopy: propext, Classical.choice, Quot.sound
CWorld.C159_apart: propext, Classical.choice, Quot.sound
CWorld.C159_renews: propext, Classical.choice, Quot.sound
CWorld.C159_adds: propext, Classical.choice, Quot.sound
CWorld.C159_copy: propext
CWorld.C159_copy_violated: propext, Classical.choice, Quot.sound
CWorld.C159_rename_object: propext, Classical.choice, Quot.sound
CWorld.C159_rename_attribute: propext, Classical.choice, Quot.sound
CWorld.C159_delete_object: propext, Classical.choice, Quot.sound
CWorld.C159_delete_object_stuck: propext, Classical.choice, Quot.sound
CWorld.C159_delete_attribute: propext, Classical.choice, Quot.sound
CWorld.C159_set_intent: propext, Classical.choice, Quot.sound
CWorld.C159_set_extent: propext, Classical.choice, Quot.sound
CWorld.C159_basis_copy_violated: propext, Classical.choice, Quot.sound
CWorld.C159_delete_attributes: propext, Classical.choice, Quot.sound
CWorld.C159_raises: propext, Classical.choice, Quot.sound
C160_factors: propext, Classical.choice, Quot.sound
C160_exact_cover: propext, Classical.choice, Quot.sound
C160_reach: propext, Classical.choice, Quot.sound
C160_prefix: propext, Classical.choice, Quot.sound
C160_same: propext, Classical.choice, Quot.sound
C160_condition_prefix: propext, Classical.choice, Quot.sound
C160_condition_same: propext, Classical.choice, Quot.sound
C160_error: propext, Classical.choice, Quot.sound
C160_fidelity_violated: propext, Classical.choice, Quot.sound
C161_istability: propext, Classical.choice, Quot.sound
C161_estability: propext, Classical.choice, Quot.sound
C161_separation: propext, Classical.choice, Quot.sound
C161_sizes: propext, Classical.choice, Quot.sound
C161_filter: propext, Classical.choice, Quot.sound
C161_filter_exact: propext, Quot.sound
C161_value_istability: propext, Classical.choice, Quot.sound
C161_filter_violated: propext, Classical.choice, Quot.sound
C161_stability_violated: propext, Classical.choice, Quot.sound
C162_unexplained: propext, Classical.choice, Quot.sound
C162_explains: propext, Classical.choice, Quot.sound
C162_idle: propext, Classical.choice, Quot.sound
C162_examples: propext, Classical.choice, Quot.sound
C162_positive_concepts: propext, Classical.choice, Quot.sound
C162_pattern_loop: propext, Classical.choice, Quot.sound
C162_live_expert: propext, Classical.choice, Quot.sound
C162_list_expert: propext, Classical.choice, Quot.sound
C162_reduced_patterns_violated: propext, Classical.choice, Quot.sound
C162_examples_deleted_violated: propext, Classical.choice, Quot.sound
C162_endless_expert_violated: propext, Classical.choice, Quot.sound
C163_renewed: propext, Classical.choice, Quot.sound
C163_system: propext, Classical.choice, Quot.sound
C163_lattice: propext, Classical.choice, Quot.sound
C163_values: propext, Classical.choice, Quot.sound
C163_changed_violated: propext, Classical.choice, Quot.sound
C163_stale: propext, Classical.choice, Quot.sound
C163_sets_violated: propext, Classical.choice, Quot.sound
C163_edit: propext, Classical.choice, Quot.sound
C163_list_violated: propext, Classical.choice, Quot.sound
C163_equal_violated: propext, Classical.choice, Quot.sound
C164_alike: propext, Classical.choice, Quot.sound
C164_minimized: propext, Classical.choice, Quot.sound
C164_minimize_base: propext, Classical.choice, Quot.sound
C164_simple: propext, Classical.choice, Quot.sound
C164_complete: propext, Classical.choice, Quot.sound
C164_minimize_base_violated: propext, Classical.choice, Quot.sound
C164_unconfirm_violated: propext, Classical.choice, Quot.sound
C164_empty_violated: propext, Classical.choice, Quot.sound
C164_partial_example_violated: propext, Classical.choice, Quot.sound
C165_error: propext, Classical.choice, Quot.sound
C165_hundred: propext, Classical.choice, Quot.sound
C165_nonneg: propext, Classical.choice, Quot.sound
C165_underflow_violated: propext, Classical.choice, Quot.sound
C165_range_error: propext, Classical.choice, Quot.sound
C165_range_hundred: propext, Classical.choice, Quot.sound
C165_range_nonneg: propext, Classical.choice, Quot.sound
C165_range_underflow_violated: propext, Classical.choice, Quot.sound
C165_exp_arguments: propext, Classical.choice, Quot.sound
C166_nested: propext, Classical.choice, Quot.sound
C166_restored: propext, Classical.choice, Quot.sound
C166_function_partial: propext, Classical.choice, Quot.sound
C166_method_violated: propext, Classical.choice, Quot.sound
C166_rows_violated: propext, Classical.choice, Quot.sound
Cover.C167_cover: propext, Classical.choice, Quot.sound
Cover.C167_no_attributes: propext, Classical.choice, Quot.sound
Cover.C167_order: propext, Classical.choice, Quot.sound
Cover.C167_minimum: propext, Classical.choice, Quot.sound
Cover.C167_order_violated: propext, Classical.choice, Quot.sound
HashOrder.C168_mutators: propext, Classical.choice, Quot.sound
HashOrder.C168_primes: propext, Classical.choice, Quot.sound
HashOrder.C168_primes_all: propext, Classical.choice, Quot.sound
HashOrder.C168_primes_known: propext, Classical.choice, Quot.sound
HashOrder.C168_lin_closure: propext, Classical.choice, Quot.sound
HashOrder.C168_basis: propext, Classical.choice, Quot.sound
HashOrder.C168_basis_all: propext, Classical.choice, Quot.sound
HashOrder.C168_basis_known: propext, Classical.choice, Quot.sound
HashOrder.C168_partial_context: propext, Classical.choice, Quot.sound
HashOrder.C168_partial_context_all: propext, Classical.choice, Quot.sound
HashOrder.C168_indices: propext, Classical.choice, Quot.sound
HashOrder.C168_indices_all: propext, Classical.choice, Quot.sound
HashOrder.C168_separation_all: propext, Classical.choice, Quot.sound
HashOrder.C168_nominal_scale: propext, Classical.choice, Quot.sound
HashOrder.C168_factors_violated: propext, Classical.choice, Quot.sound
HashOrder.C168_fimi_violated: propext, Classical.choice, Quot.sound
HashOrder.C168_exception_violated: propext, Classical.choice, Quot.sound
C169_basis: propext, Classical.choice, Quot.sound
C169_complete: propext, Classical.choice, Quot.sound
C169_add: propext, Classical.choice, Quot.sound
EDB.C169_start: propext, Classical.choice, Quot.sound
EDB.C169_dialog: propext, Classical.choice, Quot.sound
EDB.C169_open: propext, Classical.choice, Quot.sound
TotalExamples.C169_refuted_violated: propext, Classical.choice, Quot.sound
TotalExamples.C169_repeated_violated: propext, Classical.choice, Quot.sound
ExplorationOrder.C170_basis: propext, Classical.choice, Quot.sound
ExplorationOrder.C170_history: propext, Classical.choice, Quot.sound
ExplorationOrder.C170_explore: propext, Classical.choice, Quot.sound
ExplorationOrder.C170_partial_context: propext, Classical.choice, Quot.sound
PCtx.C171_complete: propext, Classical.choice, Quot.sound
PCtx.C171_silent: propext, Classical.choice, Quot.sound
Cover.C171_cover: propext, Classical.choice, Quot.sound
Ctx.C172_subcontexts: propext, Classical.choice, Quot.sound
Ctx.C172_filter_subcontext: propext, Classical.choice, Quot.sound
Ctx.C172_filters: propext, Classical.choice, Quot.sound
Ctx.C172_remove_empty: propext, Classical.choice, Quot.sound
Ctx.C172_complement_subcontext: propext, Classical.choice, Quot.sound
Ctx.C172_filter_complement: propext, Classical.choice, Quot.sound
Ctx.C172_clarify: propext, Classical.choice, Quot.sound
Ctx.C172_clarify_subcontext: propext, Classical.choice, Quot.sound
Ctx.C172_clarify_subcontext_violated: propext, Classical.choice, Quot.sound
Ctx.C172_product: propext, Classical.choice, Quot.sound
Cover.C173_cover: propext, Classical.choice, Quot.sound
Cover.C173_cover_derived: propext, Classical.choice, Quot.sound
AI.C173_incremental: propext, Classical.choice, Quot.sound
AI.C173_incremental_violated: propext, Classical.choice, Quot.sound
BExp.C173_basic_exploration: propext, Classical.choice, Quot.sound
PExp.C173_patterns: propext, Classical.choice, Quot.sound
PExp.C173_pattern_exploration: propext, Classical.choice, Quot.sound
EDB.C174_add_example: propext, Classical.choice, Quot.sound
EDB.C174_confirm: propext, Classical.choice, Quot.sound
EDB.C174_reject: propext, Classical.choice, Quot.sound
EDB.C174_experts: propext, Classical.choice, Quot.sound
EDB.C174_examples: propext, Classical.choice, Quot.sound
EDB.C174_base_length: propext, Classical.choice, Quot.sound
C175_method: propext, Classical.choice, Quot.sound
C175_once: propext, Classical.choice, Quot.sound
C175_canonical_reads: propext, Classical.choice, Quot.sound
C175_dg_reads: propext, Classical.choice, Quot.sound
C175_functions_violated: propext, Classical.choice, Quot.sound
C175_raises: propext, Classical.choice, Quot.sound
C175_object_free: propext, Classical.choice, Quot.sound
C175_stale_violated: propext, Classical.choice, Quot.sound
C176_rows: propext, Classical.choice, Quot.sound
C176_iterator_right_iff: propext, Classical.choice, Quot.sound
C176_context: propext, Classical.choice, Quot.sound
C176_iterator_add_violated: propext, Classical.choice, Quot.sound
C176_database_histories: propext, Classical.choice, Quot.sound
C176_database_background: propext, Classical.choice, Quot.sound
C176_database_kinds: propext, Classical.choice, Quot.sound
C176_pair_violates: propext, Classical.choice, Quot.sound
C176_pair_background_violated: propext, Classical.choice, Quot.sound
C176_session_histories: propext, Classical.choice, Quot.sound
C176_session_accepted: propext, Classical.choice, Quot.sound
C176_pair_session_violated: propext, Classical.choice, Quot.sound
C176_basic_histories: propext, Classical.choice, Quot.sound
C176_basic_confirmed: propext, Classical.choice, Quot.sound
C176_basic_kinds: propext, Classical.choice, Quot.sound
C176_patterns: propext, Classical.choice, Quot.sound
C176_pattern_iterator: propext, Classical.choice, Quot.sound
C176_edit_attribute_iterator: propext, Classical.choice, Quot.sound
C176_reject: propext, Classical.choice, Quot.sound
CObj.C177_construct: propext, Classical.choice, Quot.sound
CObj.C177_call: propext, Classical.choice, Quot.sound
CObj.C177_objects_stay: propext, Classical.choice, Quot.sound
CObj.C177_attributes_stay: propext, Classical.choice, Quot.sound
CObj.C177_history: propext, Classical.choice, Quot.sound
CObj.C177_objects_refused: propext, Classical.choice, Quot.sound
CObj.C177_attributes_refused: propext, Classical.choice, Quot.sound
CObj.C177_delete_object: propext, Classical.choice, Quot.sound
CObj.C177_delete_attribute: propext, Classical.choice, Quot.sound
CObj.C177_row_lost: propext, Classical.choice, Quot.sound
CObj.C177_stuck: propext, Classical.choice, Quot.sound
CObj.C177_column_lost: propext, Classical.choice, Quot.sound
CObj.C177_attributes_stuck: propext, Classical.choice, Quot.sound
C177_product: propext, Classical.choice, Quot.sound
Ctx.C177_text: propext, Classical.choice, Quot.sound
Ctx.C177_text_extent: propext, Classical.choice, Quot.sound
Ctx.C177_text_letters: propext, Classical.choice, Quot.sound
Ctx.C177_text_name: propext, Classical.choice, Quot.sound
Ctx.C177_set_text: propext, Classical.choice, Quot.sound
Ctx.C177_set_text_extent: propext, Classical.choice, Quot.sound
Ctx.C177_set_text_same: propext, Classical.choice, Quot.sound
C177_str_index: propext, Classical.choice, Quot.sound
Ctx.C177_get_value: propext, Classical.choice, Quot.sound
KImp.C178_read: propext, Classical.choice, Quot.sound
KImp.C178_unit_never: propext, Classical.choice, Quot.sound
KImp.C178_never_empty: propext, Classical.choice, Quot.sound
KImp.C178_reread: propext, Classical.choice, Quot.sound
KImp.C178_stable: propext, Classical.choice, Quot.sound
KImp.C178_unit_text: propext, Classical.choice, Quot.sound
KImp.C178_negative_text: propext, Classical.choice, Quot.sound
KImp.C178_negative_reread: propext, Classical.choice, Quot.sound
KImp.C178_negative_names: none
KImp.C178_negative_order: propext, Classical.choice, Quot.sound
Ctx.C179_family: propext, Quot.sound
Ctx.C179_basis_size: propext, Classical.choice, Quot.sound
Ctx.C179_no_shorter_list: propext, Classical.choice, Quot.sound
Ctx.C179_one_attribute: propext, Classical.choice, Quot.sound
EDB.C179_exploration: propext, Classical.choice, Quot.sound
EDB.C179_exploration_attained: propext, Classical.choice, Quot.sound
Ctx.C180_theory_iff: propext, Classical.choice, Quot.sound
Ctx.C180_closed_sets: propext, Classical.choice, Quot.sound
Ctx.C180_irreducible_intents: propext, Classical.choice, Quot.sound
Ctx.C180_fewest_objects: propext, Classical.choice, Quot.sound
Ctx.C180_basis: propext, Classical.choice, Quot.sound
Ctx.C180_normal_form: propext, Classical.choice, Quot.sound
Ctx.C180_minimize: propext, Classical.choice, Quot.sound
Ctx.C181_irreducible_counterexample: propext, Classical.choice, Quot.sound
EDB.C181_lower_bound: propext, Classical.choice, Quot.sound
EDB.C181_attained: propext, Classical.choice, Quot.sound
E2.C181_sessions: propext, Classical.choice, Quot.sound
BExp.C181_basic: propext, Classical.choice, Quot.sound
BExp.C181_basic_objects: propext, Classical.choice, Quot.sound
Ctx.C182_at_least: propext, Classical.choice, Quot.sound
Ctx.C182_basis: propext, Classical.choice, Quot.sound
Ctx.C182_cover_exponential: propext, Classical.choice, Quot.sound
