{
 "claims": [
  {
   "property": "C01",
   "status": "proved",
   "theorems": [
    "Ctx.C01_constructor_rejects",
    "Ctx.C01_constructor_stores",
    "Ctx.C01_wf"
   ],
   "note": ""
  },
  {
   "property": "C02",
   "status": "partial",
   "theorems": [
    "Ctx.C02_distinct_violated",
    "Ctx.C02_distinct_partial",
    "Ctx.C02_distinct_kept",
    "Ctx.C02_at_most_twice",
    "Ctx.C02_own_suffix_partial"
   ],
   "note": "False as stated: for ['a_1','a','a'] the suffixed name collides with a given one (witness proved). Proved: distinct whenever no suffixed form of a repeated name is already present; duplicate-free lists are always kept. For all lists (if suffixing gives different names for different positions): no name is stored at three positions, and one stored at two is a given name at one of them and a generated one at the other; distinct if no given name looks like a name generated for another position."
  },
  {
   "property": "C03",
   "status": "proved",
   "theorems": [
    "Ctx.C03_histories",
    "Ctx.C03_start",
    "Ctx.C03_legal_returns",
    "Ctx.C03_failed_unchanged",
    "Ctx.C03_illegal_raises"
   ],
   "note": ""
  },
  {
   "property": "C04",
   "status": "partial",
   "theorems": [
    "Ctx.C04_views_partial",
    "Ctx.C04_pairs_order",
    "Ctx.C04_shape",
    "Ctx.C04_unknown",
    "Ctx.C04_views_violated"
   ],
   "note": "False on contexts without objects, where get_attribute_extent of a known attribute raises IndexError (witness proved); proved for all other contexts."
  },
  {
   "property": "C05",
   "status": "partial",
   "theorems": [
    "Ctx.C05_primes",
    "Ctx.C05_co_primes_partial",
    "Ctx.C05_unknown",
    "Ctx.C05_co_primes_violated"
   ],
   "note": "Context methods proved for all contexts; the closure_operators functions are proved for contexts with an object and raise on object-free contexts (witness proved)."
  },
  {
   "property": "C06",
   "status": "partial",
   "theorems": [
    "Ctx.C06_aclosure",
    "Ctx.C06_oclosure",
    "Ctx.C06_agree_partial",
    "Ctx.C06_agree_violated"
   ],
   "note": "Closure-operator laws proved for all contexts; agreement of the two implementations proved for contexts with an object, on object-free contexts closure_operators.aclosure raises IndexError (witness proved)."
  },
  {
   "property": "C07",
   "status": "proved",
   "theorems": [
    "Ctx.C07_transpose",
    "Ctx.C07_involution"
   ],
   "note": ""
  },
  {
   "property": "C08",
   "status": "partial",
   "theorems": [
    "Ctx.C08_mul_no_middle",
    "Ctx.C08_mul_rejects",
    "Ctx.C08_mul_partial",
    "Ctx.C08_mul_violated"
   ],
   "note": "Rejection proved for all pairs; the composition needs a left context with an object. Without one the code raises ValueError (witness proved)."
  },
  {
   "property": "C09",
   "status": "partial",
   "theorems": [
    "Ctx.C09_permuted_equal",
    "Ctx.C09_equal_same_partial",
    "Ctx.C09_equal_same_violated"
   ],
   "note": "Permuted contexts compare equal; the converse is proved for names that cannot be confused in the text form, with a proved counterexample otherwise."
  },
  {
   "property": "C10",
   "status": "proved",
   "theorems": [
    "Ctx.C10_clarify"
   ],
   "note": ""
  },
  {
   "property": "C11",
   "status": "proved",
   "theorems": [
    "Ctx.C11_reduce_objects",
    "Ctx.C11_reduce_attributes",
    "Ctx.C11_machine",
    "Ctx.C11_machine_attributes"
   ],
   "note": "C11_reduce_objects and C11_reduce_attributes are about unbounded row codes; C11_machine and C11_machine_attributes show that the program with int64 codes returns the same up to 63 attributes (objects), the range the property quantifies over, if & is exact on integers from 0 to 2^63-1."
  },
  {
   "property": "C12",
   "status": "partial",
   "theorems": [
    "Ctx.C12_exact",
    "Ctx.C12_iff",
    "Ctx.C12_complete_violated",
    "Ctx.C12_complete_partial"
   ],
   "note": "False as stated: positions are compared with removed row codes (witness proved). Proved when every code is 0 or at least the number of objects. C12_exact says for every context which rows are removed (reducible and not confused with a removed row), C12_iff that a reducible row is left exactly if there is such a confusion."
  },
  {
   "property": "C13",
   "status": "partial",
   "theorems": [
    "Ctx.C13_codes_partial",
    "Ctx.C13_code_exact",
    "Ctx.C13_codes_violated",
    "Ctx.C11_wide_violated"
   ],
   "note": "Proved for rows of at most 64 cells; false for every width from 65 on (proved), and then reduce_objects merges two different objects and loses an intent (C11_wide_violated)."
  },
  {
   "property": "C14",
   "status": "proved",
   "theorems": [
    "Ctx.C14_complementary"
   ],
   "note": ""
  },
  {
   "property": "C15",
   "status": "partial",
   "theorems": [
    "Ctx.C15_compound_violated",
    "Ctx.C15_compound_partial"
   ],
   "note": "False for every context with an object and an attribute: compound always raises ValueError (proved). Only the degenerate contexts without objects or without attributes satisfy it."
  },
  {
   "property": "C16",
   "status": "proved",
   "theorems": [
    "Ctx.C16_subcontext",
    "Ctx.C16_filtered",
    "Ctx.C16_mode"
   ],
   "note": ""
  },
  {
   "property": "C17",
   "status": "proved",
   "theorems": [
    "Ctx.C17_remove_empty"
   ],
   "note": ""
  },
  {
   "property": "C18",
   "status": "proved",
   "theorems": [
    "Ctx.C18_associative_aclosure",
    "Ctx.C18_associative_aprime"
   ],
   "note": ""
  },
  {
   "property": "C19",
   "status": "proved",
   "theorems": [
    "C19_is_respected_iff",
    "C19_is_respected_partial_example",
    "C19_eq_respected",
    "C19_eq_iff_semantic"
   ],
   "note": ""
  },
  {
   "property": "C20",
   "status": "proved",
   "theorems": [
    "C20_simple_closure",
    "C20_simple_closure_terminates"
   ],
   "note": ""
  },
  {
   "property": "C21",
   "status": "partial",
   "theorems": [
    "C21_exact",
    "C21_order_independent",
    "C21_iff",
    "C21_lin_closure_partial",
    "C21_lin_closure_terminates",
    "C21_lin_closure_upper",
    "C21_lin_closure_duplicates_violated"
   ],
   "note": "False as stated when the list contains equal implications (witness proved); proved for lists of pairwise different implications. C21_exact gives the value for every list and every pop order: an implication with n premise attributes that occurs m times is applied as soon as n/m (rounded up) of them are present, with the conclusion of one of its copies. C21_iff says when this equals simple_closure."
  },
  {
   "property": "C22",
   "status": "proved",
   "theorems": [
    "C22_closure",
    "C22_closure_terminates"
   ],
   "note": ""
  },
  {
   "property": "C23",
   "status": "partial",
   "theorems": [
    "Imp.C23_round_trip_partial",
    "Imp.C23_round_trip_violated",
    "Imp.C23_one_arrow",
    "Imp.C23_malformed"
   ],
   "note": "Fails for an empty premise or conclusion (witness proved); the exact condition for the round trip is proved. C23_one_arrow and C23_malformed say what str2imp does for every text: one arrow gives the parts between the commas without blanks around them, no arrow or several raise ValueError."
  },
  {
   "property": "C24",
   "status": "proved",
   "theorems": [
    "Ctx.C24_basis_sound",
    "Ctx.C24_basis_returns"
   ],
   "note": ""
  },
  {
   "property": "C25",
   "status": "partial",
   "theorems": [
    "Ctx.C25_basis_closure",
    "Ctx.C25_basis_complete",
    "Ctx.C25_repeated_background_violated",
    "Ctx.C25_objectfree_background_violated",
    "Ctx.C154_iff"
   ],
   "note": "Proved for background lists without equal implications and contexts with an object; both exclusions have a proved counterexample. For the default lin_closure, Ctx.C154_iff says exactly for which backgrounds completeness holds on all contexts."
  },
  {
   "property": "C26",
   "status": "proved",
   "theorems": [
    "Ctx.C26_basis_pseudo_intents"
   ],
   "note": ""
  },
  {
   "property": "C27",
   "status": "proved",
   "theorems": [
    "Ctx.C27_basis_minimal",
    "Ctx.C27_basis_irredundant"
   ],
   "note": ""
  },
  {
   "property": "C28",
   "status": "proved",
   "theorems": [
    "Ctx.C28_basis_terminates"
   ],
   "note": ""
  },
  {
   "property": "C29",
   "status": "proved",
   "theorems": [
    "Ctx.C29_iterator_eq_list"
   ],
   "note": ""
  },
  {
   "property": "C30",
   "status": "proved",
   "theorems": [
    "Ctx.C30_lin_eq_simple"
   ],
   "note": ""
  },
  {
   "property": "C31",
   "status": "partial",
   "theorems": [
    "C31_default_raises_violated",
    "C31_first_call_partial",
    "C31_stale_violated"
   ],
   "note": "False: with the default argument the call raises TypeError for every context with an object and an attribute; with confirmed=[] the list cached by the first call is returned after modifications. Proved for the first call with confirmed=[] (at least one attribute)."
  },
  {
   "property": "C32",
   "status": "partial",
   "theorems": [
    "C32_canonical_sound_complete",
    "C32_cpython_sound_complete",
    "C32_canonical_partial",
    "C32_canonical_simple_partial",
    "C32_incremental_eq_dg_partial",
    "C32_canonical_violated",
    "C32_objectfree_violated"
   ],
   "note": "False as stated: mod_extra.sort compares sets by proper inclusion, CPython's list.sort can leave a set behind a proper superset, and the result then contains a redundant implication whose premise is no pseudo-intent (witness with 2 objects and 5 attributes proved, for the sort of short lists modelled after CPython); object-free contexts raise IndexError. Proved: for every permutation the sort may produce the result is sound and complete; if the sort never leaves a set behind a proper superset the result is exactly the canonical basis and equals that of compute_dg_basis up to order. The method with the caches of basis_computation returns the same (C175)."
  },
  {
   "property": "C33",
   "status": "partial",
   "theorems": [
    "C33_transparent_partial",
    "C33_unmodified_partial",
    "C33_stale_violated"
   ],
   "note": "Proved for histories in which no basis computation raised, and after one raised for histories without further modification. False otherwise: an exception leaves the caches installed. Basis functions are computations that ask for rows and columns and do not modify the answers."
  },
  {
   "property": "C34",
   "status": "proved",
   "theorems": [
    "C34_norris"
   ],
   "note": ""
  },
  {
   "property": "C35",
   "status": "proved",
   "theorems": [
    "C35_iterator"
   ],
   "note": ""
  },
  {
   "property": "C36",
   "status": "proved",
   "theorems": [
    "C36_covering"
   ],
   "note": ""
  },
  {
   "property": "C37",
   "status": "proved",
   "theorems": [
    "C37_top_bottom",
    "C37_system"
   ],
   "note": ""
  },
  {
   "property": "C38",
   "status": "proved",
   "theorems": [
    "C38_parents_children"
   ],
   "note": ""
  },
  {
   "property": "C39",
   "status": "partial",
   "theorems": [
    "C39_navigation_violated",
    "C39_navigation_partial"
   ],
   "note": "False as stated: after compute_index every lookup raises KeyError because the hash covers meta (proved up to hash collisions). What holds: navigation is unaffected while no concept carries meta data."
  },
  {
   "property": "C40",
   "status": "proved",
   "theorems": [
    "CSys.C40_histories"
   ],
   "note": ""
  },
  {
   "property": "C41",
   "status": "proved",
   "theorems": [
    "C41_istability"
   ],
   "note": "Quotients are rationals; the code returns their floating-point rounding."
  },
  {
   "property": "C42",
   "status": "proved",
   "theorems": [
    "C42_estability"
   ],
   "note": "Quotients are rationals; the code returns their floating-point rounding."
  },
  {
   "property": "C43",
   "status": "partial",
   "theorems": [
    "C43_separation_partial",
    "C43_separation_violated"
   ],
   "note": "Proved for contexts with an object or without attributes; for a context built from an empty table with attributes the function raises IndexError (proved for all of them)."
  },
  {
   "property": "C44",
   "status": "proved",
   "theorems": [
    "C44_sizes"
   ],
   "note": ""
  },
  {
   "property": "C45",
   "status": "partial",
   "theorems": [
    "C45_filter_violated",
    "C45_filter_partial",
    "C45_value_istability"
   ],
   "note": "False as stated: modes 'abs' and 'part' never return a result (proved). Mode 'value' is proved correct on every non-empty index."
  },
  {
   "property": "C46",
   "status": "proved",
   "theorems": [
    "C46_factors_are_concepts"
   ],
   "note": "Contexts with at least one cross, fidelity at most 1 (see C48_no_cross and C48_coverage for the other cases)."
  },
  {
   "property": "C47",
   "status": "proved",
   "theorems": [
    "C47_exact_cover"
   ],
   "note": ""
  },
  {
   "property": "C48",
   "status": "proved",
   "theorems": [
    "C48_coverage",
    "C48_no_cross"
   ],
   "note": "Fractions are rationals; the code returns their floating-point rounding and compares rounded values with the fidelity."
  },
  {
   "property": "C49",
   "status": "proved",
   "theorems": [
    "C49_factor_contexts",
    "C49_rebuild"
   ],
   "note": "For lists of factors with at least one object. The product context has the objects and attributes that occur in a factor."
  },
  {
   "property": "C50",
   "status": "partial",
   "theorems": [
    "C50_weighted_violated",
    "C50_weighted_partial",
    "C50_yields_partial"
   ],
   "note": "False as stated: with disjoint object and attribute names every run with a cross and positive fidelity raises AssertionError (proved); only requests of at most 0 succeed. For arbitrary, also shared, names: the run ends, each value is a concept with a new cross and a score that is exactly described, and the run ends normally exactly when the request is met, otherwise by AssertionError or KeyError."
  },
  {
   "property": "C51",
   "status": "proved",
   "theorems": [
    "C51_conditions"
   ],
   "note": "The iterator ends normally or with the 'Algorithm stuck' exception; every factor before that meets the conditions."
  },
  {
   "property": "C52",
   "status": "proved",
   "theorems": [
    "C52_cover_sound"
   ],
   "note": ""
  },
  {
   "property": "C53",
   "status": "proved",
   "theorems": [
    "C53_cover_complete"
   ],
   "note": ""
  },
  {
   "property": "C54",
   "status": "proved",
   "theorems": [
    "C54_minimize",
    "C54_is_redundant",
    "C54_cover_minimized"
   ],
   "note": "The list elements are distinct implication objects."
  },
  {
   "property": "C55",
   "status": "partial",
   "theorems": [
    "C55_attribute_side_partial",
    "C55_object_side_partial",
    "C55_confirmed_stay_valid_violated",
    "C55_colliding_name_violated"
   ],
   "note": "False as stated: edit_attribute checks only confirmed object implications and edit_object only confirmed attribute implications, and adding an object under a name in use renames the old one. Proved for histories with new names and without edit_attribute (attribute side) or without edit_object (object side), from contexts with at least one object and one attribute."
  },
  {
   "property": "C56",
   "status": "proved",
   "theorems": [
    "C56_attr_rejected",
    "C56_attr_accepted",
    "C56_attr_accepted_any_name",
    "C56_obj_rejected",
    "C56_obj_accepted",
    "C56_index"
   ],
   "note": "Rejections for every state; acceptance for reachable states (with a name in use: statement on the added row). Negative positions: C156."
  },
  {
   "property": "C57",
   "status": "partial",
   "theorems": [
    "C57_background_valid_partial",
    "C57_open_basis_partial",
    "C57_raising_unchanged_partial",
    "C57_open_basis_repeated",
    "C57_stale_open_implications_violated"
   ],
   "note": "False as stated: edit_example with a changed intent and the name of another object raises after storing the intent and without recomputing, so a stale open implication can be confirmed. Proved for all histories (any condition; deletions, edit_attribute and raising calls included) in which edits use the old name or a new one; the relative-basis statement needs the default condition and an initial background without repetitions; C57_open_basis_repeated says what is open with repetitions. At least one object."
  },
  {
   "property": "C58",
   "status": "partial",
   "theorems": [
    "C58_finished_complete",
    "C58_finished_repeated_partial",
    "C58_repeated_violated"
   ],
   "note": "False if the initial background contains an implication twice (C58_repeated_violated). Proved otherwise: histories as in C57 (edits with the old name or a name not in use), default condition, valid initial background without repetitions, at least one object. C58_finished_repeated_partial: with repetitions one direction holds, and the other for the background with equal implications counted together (C154)."
  },
  {
   "property": "C59",
   "status": "proved",
   "theorems": [
    "C59_truthful_expert"
   ],
   "note": "GenericExpert of explorationtest.py; at least one object; str() of different sets differs and is no object name."
  },
  {
   "property": "C60",
   "status": "partial",
   "theorems": [
    "C60_last_session_partial",
    "C60_single_session_partial",
    "C60_reject",
    "C60_add_object",
    "C60_two_sessions_violated"
   ],
   "note": "Holds for the session created last (so whenever there is one session), if only candidates are accepted and objects get new names; at least one object. False for earlier sessions: create_session replaces the basis the shared context is checked against. C60_reject and C60_add_object state the outcomes of reject_implication and add_object for all arguments."
  },
  {
   "property": "C61",
   "status": "partial",
   "theorems": [
    "C61_confirm_exact",
    "C61_confirmed_patterns_partial",
    "C61_negative_example_violated"
   ],
   "note": "confirm_pattern accepts exactly the patterns it should. Afterwards add_negative_example takes any row, so the invariant is proved for negative examples that contain no confirmed pattern and refuted otherwise. New objects get new names."
  },
  {
   "property": "C62",
   "status": "proved",
   "theorems": [
    "C62_unexplained",
    "C62_explained_monotone",
    "C62_examples"
   ],
   "note": "New objects get new names."
  },
  {
   "property": "C63",
   "status": "proved",
   "theorems": [
    "C63_scaling_cells",
    "C63_scaling",
    "C63_returns"
   ],
   "note": "Cells for all names; the statement by names 'm:s' needs the joined names to be different (otherwise the constructor renames them). Conditions are arbitrary functions of the value that may raise; evaluation has no side effects."
  },
  {
   "property": "C64",
   "status": "proved",
   "theorems": [
    "C64_ordinal",
    "C64_nominal",
    "C64_ordinal_applied"
   ],
   "note": "Names are represented by the integer or value they show."
  },
  {
   "property": "C65",
   "status": "partial",
   "theorems": [
    "C65_truth_values_partial",
    "C65_values_violated"
   ],
   "note": "False: the constructor of Context stores np.array(table, dtype=bool), so only the truth value of a cell is kept."
  },
  {
   "property": "C66",
   "status": "partial",
   "theorems": [
    "C66_round_trip_partial",
    "C66_exact",
    "C66_iff",
    "C66_strings",
    "C66_eval_raises_violated",
    "C66_numeric_name_violated"
   ],
   "note": "False in general: read_cxt evaluates every name, so a name that evaluates is replaced by its value and a name whose evaluation raises something other than NameError/SyntaxError aborts reading. Proved for names without line breaks and outer white space whose evaluation raises NameError or SyntaxError (or gives the name back). C66_exact: for names without line breaks the result is the constructor applied to the values read, or the first error; C66_iff: if these values are distinct, the context comes back iff every name does; C66_strings: for strings none of which evaluates, it comes back iff no name has a line break or outer white space. eval is an oracle."
  },
  {
   "property": "C67",
   "status": "partial",
   "theorems": [
    "C67_read_back_partial",
    "C67_object_named_zero_violated"
   ],
   "note": "False: a table with an object named 0 or 1 raises ValueError. Proved for all other tables with at least one object, names without tabs, line breaks and quotation marks, attribute names without outer white space, distinct names."
  },
  {
   "property": "C68",
   "status": "proved",
   "theorems": [
    "C68_objects",
    "C68_attributes",
    "C68_only_names"
   ],
   "note": "For the list returned by norris."
  },
  {
   "property": "C69",
   "status": "proved",
   "theorems": [
    "C69_fimi",
    "C69_unambiguous",
    "C69_intents_determined"
   ],
   "note": ""
  },
  {
   "property": "C70",
   "status": "partial",
   "theorems": [
    "C70_constructor_violated",
    "C70_constructor_partial",
    "C70_constructor_shapes",
    "C70_transpose_violated",
    "C70_transpose_partial"
   ],
   "note": "False: TypeError (float index in subseteq_table) for every pair of tables with a cell, IndexError without objects; C70_constructor_partial says exactly when the constructor returns. Transposing fails likewise with a cell, and returns without objects and with attributes."
  },
  {
   "property": "C71",
   "status": "proved",
   "theorems": [
    "C71_sound",
    "C71_empty_complete"
   ],
   "note": "For well-formed partial contexts with at least one object; by C70 the constructor itself does not build ones with cells, so states are taken as given."
  },
  {
   "property": "C72",
   "status": "partial",
   "theorems": [
    "C72_condition_fidelity_violated",
    "C72_condition_fidelity_partial"
   ],
   "note": "False as stated: concrete context in which the iterator stops early. Proved for min_atts_and_objs at most 1, no comparison of sizes and repetitions allowed: the run ends normally with the requested fraction covered or with all uncovered crosses in the columns of one concept."
  },
  {
   "property": "C73",
   "status": "proved",
   "theorems": [
    "C73_cover_direct"
   ],
   "note": ""
  },
  {
   "property": "C74",
   "status": "proved",
   "theorems": [
    "C74_open_and_confirmed_complete",
    "C74_finished"
   ],
   "note": ""
  },
  {
   "property": "C75",
   "status": "proved",
   "theorems": [
    "C75_edit_and_delete_raise"
   ],
   "note": ""
  },
  {
   "property": "C76",
   "status": "proved",
   "theorems": [
    "C76_no_candidates_complete",
    "C76_candidates_new"
   ],
   "note": "At least one object. For the session created last."
  },
  {
   "property": "C77",
   "status": "partial",
   "theorems": [
    "C77_positive_concepts",
    "C77_pairs_partial",
    "C77_default_generator_violated",
    "C77_default_generator_raises_violated"
   ],
   "note": "Proved for generators of pairs. With the default generator the method raises TypeError unless the generator is empty, so it never reports a pattern. Row codes of the reduction unbounded, as in C11."
  },
  {
   "property": "C78",
   "status": "partial",
   "theorems": [
    "C78_uread_violated"
   ],
   "note": "False: TypeError for every context with at least one name (str.decode / unicode used on str)."
  },
  {
   "property": "C79",
   "status": "proved",
   "theorems": [
    "C79_edges"
   ],
   "note": "Concepts with empty meta (equality and hash agree)."
  },
  {
   "property": "C80",
   "status": "proved",
   "theorems": [
    "C80_complete",
    "C80_inconsistent",
    "C80_after_answer"
   ],
   "note": "For well-formed partial contexts; C80_after_answer: the same after every truthful answer of an exploration."
  },
  {
   "property": "C81",
   "status": "partial",
   "theorems": [
    "C81_histories_partial",
    "C81_duplicate_name_violated"
   ],
   "note": "False if a used name is added: the tables rename it, the list of objects does not. True for histories with fresh names."
  },
  {
   "property": "C82",
   "status": "partial",
   "theorems": [
    "C82_incomplete_violated",
    "C82_idempotent_partial"
   ],
   "note": "False: the closure is not idempotent. True if it is, in particular without unknown cells."
  },
  {
   "property": "C83",
   "status": "proved",
   "theorems": [
    "C83_finished_complete",
    "C83_answers_accepted"
   ],
   "note": "Start: a well-formed partial context with at least one object that is true in the domain; the default condition on premises for the completeness, any condition for the acceptance of answers (see C97 for conditions)."
  },
  {
   "property": "C84",
   "status": "proved",
   "theorems": [
    "C84_terminates"
   ],
   "note": ""
  },
  {
   "property": "C85",
   "status": "partial",
   "theorems": [
    "C85_stale_violated",
    "C85_open_partial"
   ],
   "note": "False: confirm_implications completes the context after the open implications were computed. True after confirm_implication and add_example."
  },
  {
   "property": "C86",
   "status": "proved",
   "theorems": [
    "C86_compute_index"
   ],
   "note": "Meta data are association lists with distinct keys (dicts)."
  },
  {
   "property": "C87",
   "status": "partial",
   "theorems": [
    "KImp.C87_negative_exact",
    "KImp.C87_negative_partial",
    "KImp.C87_negative_violated",
    "KImp.C87_negative_partial_example",
    "KImp.C87_partial_example_violated",
    "KImp.C87_plain_partial_example"
   ],
   "note": "False whenever premise and conclusion share an element (proved for all such pairs): the conclusion is reduced first. True for disjoint ones. On partial examples the answer lies strictly between 'all completions' and 'some completion' (witnesses both ways); for Implication it is exactly 'some completion'."
  },
  {
   "property": "C88",
   "status": "partial",
   "theorems": [
    "KImp.C88_unit_partial",
    "KImp.C88_unit_violated"
   ],
   "note": "True when the conclusion is not in the premise. Otherwise AssertionError for every set containing the premise, for every partial example and every comparison with an equal premise."
  },
  {
   "property": "C89",
   "status": "partial",
   "theorems": [
    "KImp.C89_equal_same_answers_partial",
    "KImp.C89_mixed_equality_violated",
    "KImp.C89_deepcopy_partial",
    "KImp.C89_deepcopy_violated",
    "KImp.C89_negative_hash_violated",
    "KImp.C89_negative_text_violated"
   ],
   "note": "True within one class and for copies of plain and unit implications. False across classes, for deep copies of negative implications, and for the hash of negative implications, whose text depends on set iteration order; str2imp reads that text as an implication with a name beginning with 'not ('."
  },
  {
   "property": "C90",
   "status": "partial",
   "theorems": [
    "C90_probability",
    "C90_bounds",
    "C90_objectfree_violated"
   ],
   "note": "Proved for all contexts with at least one object, with floats taken as real numbers (no rounding or underflow). False without objects: ZeroDivisionError if there is an attribute."
  },
  {
   "property": "C91",
   "status": "partial",
   "theorems": [
    "C91_prime_partial",
    "C91_prime_violated",
    "C91_factorial",
    "C91_divisible"
   ],
   "note": "is_factorial and the three divisibility tests are right for all integers. is_prime is right from 2 on; below 2 it is True for every number."
  },
  {
   "property": "C92",
   "status": "proved",
   "theorems": [
    "C92_explore",
    "C92_numbers"
   ],
   "note": "Starts from the context without objects, as in the source. Answers may depend on the question, the state and the round; the typed input (eval of a line) is replaced by the answer."
  },
  {
   "property": "C93",
   "status": "partial",
   "theorems": [
    "C93_condition_contains",
    "C93_hereditary_partial",
    "C93_orbits",
    "C93_filter_violated"
   ],
   "note": "False in general: with a condition left out premises change the later ones (witness). True for conditions that pass to subsets. For every condition the result contains each quasi-closed premise that meets it, and an empty result with a condition selecting a set of each orbit means completeness."
  },
  {
   "property": "C94",
   "status": "partial",
   "theorems": [
    "C94_intent",
    "C94_implication",
    "C94_orbit_maximal",
    "C94_equality_partial",
    "C94_equality_violated"
   ],
   "note": "All but the last part are proved. get_symmetric_equality returns None for 7 of the 21 attributes (f = g among them); otherwise it returns the symmetric attribute."
  },
  {
   "property": "C95",
   "status": "proved",
   "theorems": [
    "C95_closed_iff",
    "C95_entails",
    "C95_sound"
   ],
   "note": ""
  },
  {
   "property": "C96",
   "status": "partial",
   "theorems": [
    "C96_examples",
    "C96_find",
    "C96_partial",
    "C96_context_violated"
   ],
   "note": "generate_context raises TypeError for every n and every non-empty attribute list (PartialContext cannot be constructed); the other parts are proved."
  },
  {
   "property": "C97",
   "status": "proved",
   "theorems": [
    "C97_orbit_complete",
    "C97_biunars",
    "C97_biunars_progress"
   ],
   "note": "Starts from a given partial context with mirrored objects, since generate_context raises; the typed input is replaced by the answer. New objects are new names, as they are compared by identity."
  },
  {
   "property": "C98",
   "status": "partial",
   "theorems": [
    "Mv.C98_add_object_violated",
    "Mv.C98_histories_partial",
    "Mv.C98_legal_returns",
    "Mv.C98_failed_unchanged",
    "Mv.C98_deepcopy"
   ],
   "note": "False for add_object and add_object_with_intent, which always raise AttributeError. Histories of the other mutators with fresh names act like updates of the table of truth values (the constructor turns all values into truth values, C65)."
  },
  {
   "property": "C99",
   "status": "partial",
   "theorems": [
    "Mv.C99_subcontext",
    "Mv.C99_condition",
    "Mv.C99_values_partial",
    "Mv.C99_values_violated"
   ],
   "note": "Proved for attributes and conditions. By values: true only with the stored truth values compared with the requested ones; a requested integer other than 0 and 1 selects no object."
  },
  {
   "property": "C100",
   "status": "partial",
   "theorems": [
    "Csv.C100_binary_mode_violated",
    "Csv.C100_read_txt_partial",
    "Csv.C100_read_mv_txt_partial",
    "Csv.C100_read_csv_partial",
    "Csv.C100_uread_text_mode_violated",
    "Csv.C100_trailing_tabs_partial",
    "Csv.C100_csv_empty_line_partial"
   ],
   "note": "False: the files are opened in binary mode, so all five raise csv.Error for every non-empty file and StopIteration for the empty one. The partial theorems say what the bodies would return for a file opened in text mode, with blanks around the names; values become truth values as numpy converts strings (a parameter). uread_mv_txt would raise TypeError in text mode as well; read_mv_txt would ignore tabs at the ends of the lines with names; the csv readers would raise IndexError for an empty line."
  },
  {
   "property": "C101",
   "status": "partial",
   "theorems": [
    "Csv.C101_content",
    "Csv.C101_injective",
    "Csv.C101_read_back_violated",
    "Csv.C101_uwrite_violated"
   ],
   "note": "Contents and injectivity of write_mv_txt are proved. Reading back is impossible (C100), and would lose the values even in text mode; uwrite_mv_txt always raises TypeError and leaves an empty file."
  },
  {
   "property": "C102",
   "status": "partial",
   "theorems": [
    "Xml.C102_write_violated",
    "Xml.C102_read_violated",
    "Xml.C102_handlers_partial",
    "Xml.C102_pieces_violated",
    "Xml.C102_bad_reference",
    "Xml.C102_bad_meta",
    "Xml.C102_document_ids"
   ],
   "note": "False: write_xml, read_xml and uread_xml raise TypeError for every argument. C102_handlers_partial: the handlers applied to the document built by write_xml (with strings as text) return the concept system, if names are reported in one piece; C102_pieces_violated: otherwise blanks are lost. C102_bad_reference: exceptions for references that are not declared or stand outside of a concept. C102_bad_meta: exceptions for meta values that are no numbers. C102_document_ids: the document declares the ids o1, o2, … and a1, a2, …"
  },
  {
   "property": "C103",
   "status": "partial",
   "theorems": [
    "C103_write_dot",
    "C103_uwrite_dot",
    "C103_counts",
    "C103_escape_violated"
   ],
   "note": "All but the last part are proved. Names are not escaped, so that different diagrams may give the same file."
  },
  {
   "property": "C104",
   "status": "partial",
   "theorems": [
    "C104_reports_partial",
    "C104_exact_partial",
    "C104_no_exception_partial",
    "C104_stuck_violated",
    "C104_coverage_violated"
   ],
   "note": "False in general: with min_atts_and_objs 2 the iterator can raise its 'Algorithm stuck' exception, and the reported coverage counts crosses of attributes that were given up (witnesses). For all parameters the gains (repetitions allowed) are lower bounds and the coverage an upper bound, and the other parts hold; for min_atts_and_objs at most 1 without comparison of sizes nothing is raised, and the numbers are exact if repetitions are allowed."
  },
  {
   "property": "C105",
   "status": "proved",
   "theorems": [
    "C105_reach",
    "C105_order",
    "C105_context",
    "C105_determined",
    "C105_bounds"
   ],
   "note": "Reachability along the written edges, for any system without repetitions and for concept lattices; the labelled diagram determines the incidence; meets and joins of any concepts."
  },
  {
   "property": "C106",
   "status": "proved",
   "theorems": [
    "C106_lookup",
    "csGetItem_cases",
    "C106_histories",
    "C106_other_arguments",
    "C106_outcomes",
    "C106_str"
   ],
   "note": "Iteration goes through __getitem__ until IndexError, as in Python for classes without __iter__. Slices as arguments of __getitem__ are not modelled."
  },
  {
   "property": "C107",
   "status": "partial",
   "theorems": [
    "C107_live_exact",
    "C107_live_violated",
    "C107_done_partial"
   ],
   "note": "False for set(cxt.iterate_concepts()): concepts are changed after they were yielded, and their hash with them; C107_live_exact says exactly which are found if different texts have different hashes, and C107_live_violated that the first one is not found whenever some object has all attributes. For set(cxt.concepts) everything holds (any hash function)."
  },
  {
   "property": "C108",
   "status": "proved",
   "theorems": [
    "C108_context",
    "C108_distribution"
   ],
   "note": "Random numbers are an arbitrary sequence of elements of a linear order (C108_context) or reals with the product of uniform measures (C108_distribution); floats are exact."
  },
  {
   "property": "C109",
   "status": "proved",
   "theorems": [
    "compareTuples_iff",
    "C109_compare"
   ],
   "note": "The tuples are represented by their second entries, the sets compared."
  },
  {
   "property": "C110",
   "status": "partial",
   "theorems": [
    "Ctx.C110_sound",
    "Ctx.C110_complete",
    "Ctx.C110_unrefuted",
    "Ctx.C110_adding",
    "Ctx.C110_accepted_violated"
   ],
   "note": "All parts are proved but the last, which is false: a refuted value is not asked again with a smaller conclusion and the sets it skipped are not visited (witness). C110_sound holds for any change of the objects that leaves at least one; the others for consumers that keep the intents of objects, in particular those adding objects with new names."
  },
  {
   "property": "C111",
   "status": "partial",
   "theorems": [
    "C111_insert",
    "C111_plus_violated",
    "C111_plus_partial"
   ],
   "note": "Holds for remove_subsumed and remove_subsumed_simply (proved for all lists). False for remove_subsumed_plus: with an equal premise in front and something new in the conclusion the implication is dropped and the list is unchanged (proved). What holds of it: the claim when implications with the same premise have all of the conclusion, and what the answer True means."
  },
  {
   "property": "C112",
   "status": "proved",
   "theorems": [
    "PCtx.C112_repr",
    "PCtx.C112_repr_injective",
    "PCtx.C112_intents"
   ],
   "note": "str of names is a parameter."
  },
  {
   "property": "C113",
   "status": "partial",
   "theorems": [
    "PCtx.C113_deepcopy_violated",
    "PCtx.C113_deepcopy_partial",
    "PCtx.C113_deepcopy_shapes"
   ],
   "note": "False: IndexError for every partial context with a cell and for every one without objects (a float index in subseteq_table). True only with objects and without attributes."
  },
  {
   "property": "C114",
   "status": "partial",
   "theorems": [
    "Ctx.C114_delete",
    "Ctx.C114_unknown",
    "Ctx.C114_repeated_violated"
   ],
   "note": "Proved for lists without repetitions, in any order (contexts with at least one object), and for unknown names. False for lists that name an attribute twice: the call raises (proved for all of them). The half-changed object after that exception is described in C116."
  },
  {
   "property": "C115",
   "status": "proved",
   "theorems": [
    "PDB.C115_reject_stops"
   ],
   "note": ""
  },
  {
   "property": "C116",
   "status": "partial",
   "theorems": [
    "CObj.C116_consistent",
    "CObj.C116_atomic",
    "CObj.C116_refines",
    "CObj.C116_repeated_violated"
   ],
   "note": "Proved for all histories in which no call of delete_attributes lists a name twice (arrays given to the constructor have rows as long as their shape says; lists may be anything). False for such a call with known names on a context with an object: it raises and leaves the object half changed (exact state given). C116_refines: get_object_intent and get_attribute_extent of the object answer as in the model without dictionaries used elsewhere."
  },
  {
   "property": "C117",
   "status": "partial",
   "theorems": [
    "Ctx.C117_intent",
    "Ctx.C117_extent",
    "Ctx.C117_by_index_outside",
    "Ctx.C117_oprime_inds",
    "Ctx.C117_aprime_inds",
    "Ctx.C117_oclosure_inds",
    "Ctx.C117_aclosure_inds",
    "Ctx.C117_nat",
    "Ctx.C117_first_outside_violated",
    "Ctx.C117_later_outside_partial"
   ],
   "note": "Everything is proved but the last sentence for the list methods: a position outside at the front of the list raises nothing and every position is returned (proved for all such lists). Behind a known position it raises IndexError. For attributes the context has an object, where tables without objects differ in shape."
  },
  {
   "property": "C118",
   "status": "partial",
   "theorems": [
    "CsvReader.C118_read_back",
    "CsvReader.C118_quoted_name_violated",
    "CsvReader.C118_unclosed_violated",
    "CsvReader.C118_too_long",
    "CsvReader.C118_simple_model"
   ],
   "note": "Proved, with csv.reader as the state machine of the csv module, but for the last sentence, which is false: a plainly written name that looks like a quoted one loses its quotation marks, and an opening quotation mark without a closing one makes the rest of the file one object name (one attribute: a context with one object and no attributes is returned; several: ValueError). C118_read_back covers names written plainly, quoted, and as a quoted part followed by a plain one. Its hypotheses: at least one row, no object named 0 or 1 (C67), attributes without blanks around them, distinct names, no line of the table empty. C118_too_long: a first name over the limit raises csv.Error. C118_simple_model: for every file in which no field begins with a quotation mark and none is too long the function equals the simpler model used in C67."
  },
  {
   "property": "C119",
   "status": "proved",
   "theorems": [
    "C119_layout",
    "C119_line_endings",
    "C119_final_newline",
    "C119_not_cxt",
    "C119_bad_number",
    "pyInt_iff",
    "pySpace_eq"
   ],
   "note": "eval of a name is a parameter (a value, NameError or SyntaxError, or another exception). Numbers are decimal digits with sign and underscores; digits of other scripts are not modelled."
  },
  {
   "property": "C120",
   "status": "partial",
   "theorems": [
    "Ctx.C120_iterator",
    "Ctx.C120_histories",
    "Ctx.C120_early_violated",
    "Ctx.C120_rename_violated",
    "Ctx.C120_delete_violated"
   ],
   "note": "True for consumers that add no object after the first value and neither rename nor delete objects (changes of cells and attributes, and objects added later, do not matter). False otherwise: objects added after the first value make the iteration end with IndexError after the last value (C120_histories, all contexts); witnesses for renaming and deleting."
  },
  {
   "property": "C121",
   "status": "partial",
   "theorems": [
    "CObj.C121_cells",
    "CObj.C121_stale_eq",
    "CObj.C121_eq_violated",
    "CObj.eq_of"
   ],
   "note": "Proved for intents, extents and all later histories of mutators. False for ==: it uses the table stored a second time, so that c == d answers for the old table unless the texts are equal (C121_stale_eq; witness). Positions are not negative."
  },
  {
   "property": "C122",
   "status": "partial",
   "theorems": [
    "CObj.C122_names_partial",
    "CObj.C122_names_violated",
    "CObj.C122_append_violated",
    "CObj.C122_append_delete_violated"
   ],
   "note": "False: the dictionary of positions is not updated. C122_names_partial says what happens after c.objects[i] = x: extents have the new name, get_object_intent(x) raises KeyError, the old name is still answered, and histories of calls that look up neither name go on as for the renamed context, equal to it from the first call that returns. C122_append_violated: after c.objects.append(x) every mutator raises, in every history; C122_append_delete_violated: delete_object raises ValueError but removes the row, and then IndexError."
  },
  {
   "property": "C123",
   "status": "partial",
   "theorems": [
    "CObj.C123_loop",
    "CObj.C123_skipped_violated",
    "CObj.C123_loop_partial",
    "CObj.C123_copy"
   ],
   "note": "False: the object after the first deleted one stays, whatever the condition says (proved for all contexts; C123_loop gives the exact result). True if that one does not satisfy the condition, and for a loop over a copy of the list."
  },
  {
   "property": "C124",
   "status": "partial",
   "theorems": [
    "Ctx.C124_product",
    "Ctx.C124_approximate",
    "Ctx.C124_product_violated"
   ],
   "note": "The approximate part is proved for all 0 < fidelity <= 1. The exact part: the product always has the crosses of the context (proved), and == remove_empty_objects() holds if every attribute has an object, and only then when the texts of the names contain no line breaks; false otherwise (witness with an empty attribute, all oracles)."
  },
  {
   "property": "C125",
   "status": "partial",
   "theorems": [
    "C125_same_closure",
    "C125_sound_complete",
    "C125_lin_closure",
    "C125_length_partial",
    "C125_length_violated"
   ],
   "note": "Same closures: proved for every permutation the sort may produce (the premises are pairwise distinct, also with close=lin_closure). Length: the incremental basis is never shorter (proved); false otherwise: six implications instead of five for the witness of C32 with CPython's sort. The method with the caches of basis_computation returns the same (C175)."
  },
  {
   "property": "C126",
   "status": "proved",
   "theorems": [
    "C126_sorted",
    "C126_concept_text",
    "C126_imp_text",
    "Ctx.C126_lattice",
    "Ctx.C126_closures",
    "Ctx.C126_basis",
    "Ctx.C126_renamed"
   ],
   "note": "Exact conditions for all of them. The sort is any algorithm that compares elements of the list and sorts it whenever the comparisons are those of a strict total order. The basis is for contexts with an object and cond=lambda x: True."
  },
  {
   "property": "C127",
   "status": "proved",
   "theorems": [
    "Ctx.C127_complementary",
    "Ctx.C127_compound",
    "C127_uwrite_cxt",
    "C127_write_mv_txt",
    "C127_write_dot",
    "C127_uwrite_dot",
    "C127_lattice_dot",
    "C127_scaling",
    "C127_cxt_integers",
    "C127_strings",
    "C127_strings_uwrite_dot"
   ],
   "note": "Exact conditions; for uwrite_cxt and write_mv_txt also what has been written. write_dot and uwrite_dot: lists of distinct concepts, nonempty path; besides the names without text they raise if str(concept) does (C126). C127_strings, C127_strings_uwrite_dot: on strings the models agree with those used elsewhere. What a file object that is not closed leaves on the disk is not modelled."
  },
  {
   "property": "C128",
   "status": "proved",
   "theorems": [
    "Ctx.C128_result",
    "Ctx.C128_cond",
    "Ctx.C128_calls",
    "Ctx.C128_count",
    "Ctx.C128_bound"
   ],
   "note": "The traced computation returns what compute_dg_basis returns (C128_result). Contexts with an object; valid background; close is simple_closure, or lin_closure if no two implications of the background are equal; cond=lambda x: True, except for C128_cond (any functions). Calls are recorded for the function, not for its iterator version."
  },
  {
   "property": "C129",
   "status": "proved",
   "theorems": [
    "Ctx.C129_add_object",
    "Ctx.C129_add_attribute",
    "Ctx.C129_delete_object",
    "Ctx.C129_delete_attribute",
    "Ctx.C129_transpose",
    "Ctx.C129_bound",
    "Ctx.C129_full",
    "Ctx.C129_attained"
   ],
   "note": "Concepts as computed by norris. C129_full: no background. What the mutators do with repeated names and wrong lengths is C03."
  },
  {
   "property": "C130",
   "status": "proved",
   "theorems": [
    "Cover.C130_premises",
    "Cover.C130_canonical",
    "Cover.C130_minimize_full",
    "Cover.C130_minimum",
    "Cover.C130_minimum_violated"
   ],
   "note": "C130_premises holds for every context; C130_canonical compares premise and reduced conclusion (what == compares) with any result of compute_dg_basis without background and condition. minimize with its default close. C130_minimum_violated is the last sentence."
  },
  {
   "property": "C131",
   "status": "proved",
   "theorems": [
    "Ctx.C131_same_intents",
    "Ctx.C131_same_list",
    "Ctx.C131_same_rows",
    "Ctx.C131_same_relation",
    "Ctx.C131_clarify",
    "Ctx.C131_reduce"
   ],
   "note": "Without background implications and condition. Contexts without objects are included wherever the computation returns; reduce_objects with unbounded row codes, as in C11."
  },
  {
   "property": "C132",
   "status": "proved",
   "theorems": [
    "Ctx.C132_istability",
    "Ctx.C132_estability",
    "Ctx.C132_transpose"
   ],
   "note": "Quotients are rational numbers (the code returns floats)."
  },
  {
   "property": "C133",
   "status": "proved",
   "theorems": [
    "Ctx.C133_basic_theorem",
    "Ctx.C133_converse",
    "Ctx.C133_every_lattice",
    "Ctx.C133_ordinal",
    "Ctx.C133_nominal"
   ],
   "note": "The lattice is a bounded lattice of Mathlib; that it is finite follows from the hypotheses. In C133_ordinal at least one value."
  },
  {
   "property": "C134",
   "status": "proved",
   "theorems": [
    "C134_locally_best",
    "C134_any_concept",
    "C134_share",
    "C134_geometric",
    "C134_number"
   ],
   "note": "Quotients are rationals."
  },
  {
   "property": "C135",
   "status": "partial",
   "theorems": [
    "C135_optimal_violated",
    "C135_attributes_violated",
    "C135_decreasing_violated",
    "C135_one_partial"
   ],
   "note": "Violated, by intention of a greedy algorithm: for the rows {0,1,2} and {0,1,3} there are at least three factors for every iteration order while the two object concepts suffice; there is a run with more factors than attributes and a context whose second fraction exceeds the first in both orders tried. True part: if one concept covers all crosses exactly that concept is yielded; bounds on the number are in C134."
  },
  {
   "property": "C136",
   "status": "proved",
   "theorems": [
    "C136_exploration",
    "C136_command_line",
    "C136_numbers"
   ],
   "note": "C136_exploration has the hypotheses of C59 (an expert given by a list of implications, injective new names that are not in use, at least one object in the initial context). C136_command_line is over any type of objects and predicates and starts from the context without objects; answers may depend on state and round."
  },
  {
   "property": "C137",
   "status": "proved",
   "theorems": [
    "Ctx.C137_one_child",
    "Ctx.C137_objects",
    "Ctx.C137_attributes",
    "Ctx.C137_reduced",
    "Ctx.C137_unique",
    "Ctx.C137_same_lattice",
    "Ctx.C137_normal_form"
   ],
   "note": "Row codes are unbounded numbers, as in C11 (exact for at most 63 columns, C13). That reduce_objects may leave redundant rows is C12; C137_normal_form has as hypothesis that it does not, and C137_objects says when. C137_same_lattice holds for all contexts."
  },
  {
   "property": "C138",
   "status": "proved",
   "theorems": [
    "Ctx.C138_associative",
    "Ctx.C138_transpose",
    "Ctx.C138_identity",
    "Ctx.C138_factors",
    "Ctx.C138_decomposition"
   ],
   "note": "Degenerate products (no objects, no middle elements) are excluded by hypotheses; for them see C08. In C138_decomposition the names of the middle elements are of an infinite type, as strings are, and the left context has an object and a middle element."
  },
  {
   "property": "C139",
   "status": "proved",
   "theorems": [
    "EDB.C139_confirm_calls",
    "EDB.C139_any_order",
    "EDB.C139_more",
    "C139_sessions"
   ],
   "note": "Hypotheses as in C58 and C76: the calls considered there, a valid background of different implications, no condition on the premises, at least one object."
  },
  {
   "property": "C140",
   "status": "partial",
   "theorems": [
    "Ctx.C140_exact",
    "Ctx.C140_equivalence_partial",
    "Ctx.C140_transitive_violated",
    "PyObj.C140_classes",
    "PyObj.C140_contains"
   ],
   "note": "Violated: == is not transitive when names contain the separator of the text form (proved witness with three contexts), and no ManyValuedContext equals itself: mv == mv raises TypeError. Proved for all contexts: when == is true, that it never raises for two Contexts, reflexivity, symmetry; transitivity for names written without ambiguity."
  },
  {
   "property": "C141",
   "status": "proved",
   "theorems": [
    "C141_extents",
    "C141_count",
    "C141_ordinal",
    "C141_nominal"
   ],
   "note": "The values are those read through mvcontext[obj][k]; that ManyValuedContext itself keeps only truth values of what it was given is C65. Values and conditions of ordinal and nominal scales are compared as values (value == v), texts of them being assumed to be read back as the value."
  },
  {
   "property": "C142",
   "status": "proved",
   "theorems": [
    "Ctx.C142_add_object",
    "Ctx.C142_delete_object",
    "Ctx.C142_add_attribute",
    "Ctx.C142_delete_attribute",
    "Ctx.C142_rename_attribute"
   ],
   "note": "Bases without background knowledge and condition. The theorems speak of bases that were returned; that the computation returns is C24/C28 (at least one object)."
  },
  {
   "property": "C143",
   "status": "proved",
   "theorems": [
    "C143_truthful_calls_succeed",
    "C143_answer_exists",
    "C143_ends",
    "C143_attribute_theory",
    "C143_object_theory"
   ],
   "note": "All of it, for every permuting sort. edit_object and edit_attribute are not among the truthful calls (an edit with the true description changes nothing and could be repeated for ever)."
  },
  {
   "property": "C144",
   "status": "partial",
   "theorems": [
    "C144_messages_tell",
    "C144_messages_exist",
    "C144_multiplication_violated",
    "C144_exploration_text",
    "C144_exploration_text_exists"
   ],
   "note": "All proved but the part on MultiplicationException, which is false: the templates have no fields, the text is the same for all contexts and contains no number. str.format is modelled without escapes and format specifications."
  },
  {
   "property": "C145",
   "status": "proved",
   "theorems": [
    "Ctx.C145_concepts",
    "Ctx.C145_neighbours",
    "Ctx.C145_stability",
    "Ctx.C145_sizes",
    "Ctx.C145_separation"
   ],
   "note": "All of it. The theorems speak of lattices and transposes that were returned; that they are returned is C34/C37 and C07. Values are exact rationals, not floats."
  },
  {
   "property": "C146",
   "status": "proved",
   "theorems": [
    "Ctx.C146_subcontext",
    "Ctx.C146_filtered_and",
    "Ctx.C146_filtered_or",
    "Ctx.C146_remove_empty",
    "Ctx.C146_reduce_attributes"
   ],
   "note": "All of it, for bases without background knowledge and condition that were returned."
  },
  {
   "property": "C147",
   "status": "partial",
   "theorems": [
    "Cover.C147_values",
    "Cover.C147_other_list",
    "Cover.C147_repeated",
    "Cover.C147_repeated_violated",
    "Cover.C147_part_violated"
   ],
   "note": "Violated in two ways: an object that stands twice in the list is always lost (C147_repeated; a list that holds each of its objects twice becomes empty), and a list that holds only part of the objects can lose consequences (C147_part_violated). Proved: the statement for lists of different objects and for other lists that hold all of them."
  },
  {
   "property": "C148",
   "status": "proved",
   "theorems": [
    "AIObj.C148_values",
    "AIObj.C148_fresh",
    "AIObj.C148_sound_complete"
   ],
   "note": "All of it. Extents are values (they are not changed in place). The sort is any function that permutes and sees only the keys (KeySort); that of CPython for short lists is one (pyKeySort). The closure function reads its arguments and returns a new set."
  },
  {
   "property": "C149",
   "status": "partial",
   "theorems": [
    "C149_indices",
    "C149_values",
    "C149_threshold",
    "C149_again",
    "C149_context_violated",
    "C149_istability_down",
    "C149_estability_up",
    "C149_iceberg",
    "C149_iceberg_dual",
    "C149_negative_violated"
   ],
   "note": "Violated for concept systems: four of the six functions take lattice.context, which a ConceptSystem does not have, and raise AttributeError (C149_context_violated); the two stabilities raise KeyError exactly if the system has no least (greatest) concept, IndexError if it is empty (C149_again), and can be negative (C149_negative_violated). Proved: the parts on lattices and thresholds, and the true values on systems closed downwards (istability) or upwards (estability), in particular for the two kinds of size filters. Values are exact reals and rationals."
  },
  {
   "property": "C150",
   "status": "proved",
   "theorems": [
    "C150_simple",
    "C150_lin",
    "C150_lin_bound",
    "C150_quadratic",
    "C150_norris"
   ],
   "note": "The programs with counters are proved to return what the programs without return. Executions of loop bodies and calls are counted, not the cost of set operations. C150_lin: nonempty lists (for the empty list lin_closure returns at once)."
  },
  {
   "property": "C151",
   "status": "proved",
   "theorems": [
    "C151_norris",
    "C151_lattice",
    "C151_basis",
    "C151_merged_names_violated"
   ],
   "note": "C151_norris: every context, including those that are not well formed. C151_lattice and C151_basis: well-formed contexts (distinct names, rectangular table). C151_basis is stated for two runs that return; C24 says they do when there are objects. C151_merged_names_violated: injectivity is needed."
  },
  {
   "property": "C152",
   "status": "proved",
   "theorems": [
    "C152_session",
    "C152_experts_agree",
    "PExp.listExpert_honest",
    "PExp.firstExpert_honest",
    "C152_no_expert_violated",
    "C152_silent_expert_violated"
   ],
   "note": "Well-formed contexts. The expert is a function of the exploration and the pattern that returns a list; a generator that reads the contexts while they change is not covered. The last two theorems show what happens without an honest expert."
  },
  {
   "property": "C153",
   "status": "proved",
   "theorems": [
    "C153_rounds",
    "C153_together_violated"
   ],
   "note": "Partial contexts with at least one object (without objects the call raises). PCtx.rounds is the client's loop. C153_together_violated is the witness for the last sentence."
  },
  {
   "property": "C154",
   "status": "proved",
   "theorems": [
    "Ctx.C154_exact",
    "Ctx.C154_simple",
    "Ctx.C154_complete",
    "Ctx.C154_iff",
    "Ctx.C154_small"
   ],
   "note": "Well-formed contexts; stated for calls that return (C24: they do when there are objects). earlyImps is the expanded background; EarlyClosed (also used by C21_exact) is closure in the sense of lin_closure."
  },
  {
   "property": "C155",
   "status": "proved",
   "theorems": [
    "C155_shared_valid",
    "C155_shared_open",
    "C155_touch",
    "C155_stale_violated",
    "C155_own_lists_violated"
   ],
   "note": "Databases are numbered; own k is the number of the list object database k uses. C155_shared_open needs the default condition and an initial list without repetitions. The two theorems named violated are the witnesses for the last sentence."
  },
  {
   "property": "C156",
   "status": "proved",
   "theorems": [
    "BExp.C156_out_of_range",
    "BExp.C156_confirm",
    "BExp.C156_call",
    "BExp.C156_histories",
    "BExp.C156_last"
   ],
   "note": "Any state, any integer."
  },
  {
   "property": "C157",
   "status": "proved",
   "theorems": [
    "E2W.C157_frame",
    "E2W.C157_valid",
    "E2W.C157_original_raises",
    "E2W.C157_add_object",
    "E2W.C157_single",
    "E2W.C157_set_context_violated"
   ],
   "note": "All programs. The validity of accepted implications needs that objects get into the context (with new names) only checked against this session; without this it fails even for sessions that are the last ones of their ExplorationContext (C157_set_context_violated)."
  },
  {
   "property": "C158",
   "status": "proved",
   "theorems": [
    "DGObj.C158_values",
    "DGObj.C158_context",
    "DGObj.C158_shared_violated",
    "DGObj.simpleO_works",
    "DGObj.linO_works"
   ],
   "note": "Simulation of the run on values by the run on a heap of set objects, frame condition on older sets, separation of the returned sets; the two closure functions of the library meet the contract; a closure function with a table of its answers breaks the second call (it never ends)."
  },
  {
   "property": "C159",
   "status": "proved",
   "theorems": [
    "CWorld.C159_self",
    "CWorld.C159_programs",
    "CWorld.C159_answers",
    "CWorld.C159_deepcopy",
    "CWorld.C159_apart",
    "CWorld.C159_renews",
    "CWorld.C159_adds",
    "CWorld.C159_copy",
    "CWorld.C159_copy_violated",
    "CWorld.C159_rename_object",
    "CWorld.C159_rename_attribute",
    "CWorld.C159_delete_object",
    "CWorld.C159_delete_object_stuck",
    "CWorld.C159_delete_attribute",
    "CWorld.C159_set_intent",
    "CWorld.C159_set_extent",
    "CWorld.C159_basis_copy_violated",
    "CWorld.C159_delete_attributes",
    "CWorld.C159_raises"
   ],
   "note": "Proved as stated in the property for programs with the constructor, deepcopy, all mutators and basis computations; with copy.copy independence is false, as the property says (C159_copy_violated), and holds for programs that only add (C159_adds). The effect on a shallow copy is exact for rename, delete (also delete_attributes with a repeated name, for a table with a row) and set; a call that raises on the object of a context changes nothing at all (C159_raises), delete_attributes with a repeated name apart."
  },
  {
   "property": "C160",
   "status": "proved",
   "theorems": [
    "C160_factors",
    "C160_exact_cover",
    "C160_reach",
    "C160_prefix",
    "C160_same",
    "C160_condition_prefix",
    "C160_condition_same",
    "C160_error",
    "C160_fidelity_violated"
   ],
   "note": "Everything stated is proved, for any monotone rounding that is exact on doubles; C160_error and C160_fidelity_violated are about rounding to nearest, ties to even. That the exact fraction may stay below the fidelity is part of the statement (C160_fidelity_violated). Overflow does not occur; algorithm2_weighted is modelled with exact quotients only (C50)."
  },
  {
   "property": "C161",
   "status": "proved",
   "theorems": [
    "C161_istability",
    "C161_estability",
    "C161_separation",
    "C161_sizes",
    "C161_filter",
    "C161_filter_exact",
    "C161_value_istability",
    "C161_filter_violated",
    "C161_stability_violated"
   ],
   "note": "Everything stated is proved. The limits in the statement are sharp: exactness fails for more than 53 objects (C161_stability_violated) and for thresholds that are not reached exactly (C161_filter_violated). compute_probability: C165."
  },
  {
   "property": "C162",
   "status": "partial",
   "theorems": [
    "C162_unexplained",
    "C162_explains",
    "C162_idle",
    "C162_examples",
    "C162_positive_concepts",
    "C162_pattern_loop",
    "C162_live_expert",
    "C162_list_expert",
    "C162_reduced_patterns_violated",
    "C162_examples_deleted_violated",
    "C162_endless_expert_violated"
   ],
   "note": "Proved for every consumer that calls methods of the exploration between the steps. False: that every unrefuted pattern is found (C162_reduced_patterns_violated: of two attributes with the same positive objects only one is left by the reduction, alone it is refuted, together they would be confirmed). Outside the statement, as witnesses: a consumer that deletes a positive object makes iterate_examples raise KeyError; with infinitely many names the loop over a generator expert need not end."
  },
  {
   "property": "C163",
   "status": "partial",
   "theorems": [
    "C163_renewed",
    "C163_system",
    "C163_lattice",
    "C163_values",
    "C163_changed_violated",
    "C163_stale",
    "C163_sets_violated",
    "C163_edit",
    "C163_list_violated",
    "C163_equal_violated"
   ],
   "note": "Concept objects by address, hash an arbitrary function of extent, intent and meta data stored at insertion into the dict. C163_renewed: creation, append and successful remove leave the expected list and no dict, whatever happened before; remove of a concept that is not there raises ValueError. C163_system: from such a state on, any program that does not change the members or this system by append, remove or through the returned sets: parents of n is the set of upper neighbours by present intents if a member agrees with n in hash and value, KeyError otherwise; children never raises and is right. C163_lattice: IndexError for no concepts; otherwise right top, bottom, parents, children after any program that does not change the containers handed out, whenever the members have their original values. C163_values: such answers are those of the value model of C36. False in general: C163_changed_violated (a member shared by a lattice and a system gets a new hash: parents of it and children of everything raise KeyError in both), C163_stale (if the hash stays the same the old answer is given; the example changes the intent of a concept without objects), C163_sets_violated (emptying the returned set; C163_edit says for any edit of the returned set that it raises exactly when parents raises and is seen by the next call), C163_list_violated (appending to lattice.concepts), C163_equal_violated (a concept equal to a member but with another hash raises KeyError)."
  },
  {
   "property": "C164",
   "status": "partial",
   "theorems": [
    "C164_alike",
    "C164_minimized",
    "C164_minimize_base",
    "C164_simple",
    "C164_complete",
    "C164_minimize_base_violated",
    "C164_unconfirm_violated",
    "C164_empty_violated",
    "C164_partial_example_violated"
   ],
   "note": "Proved for contexts and all histories of the calls named: same consequences, both lists without equal members and empty together (C164_alike), in particular for the result of minimize on a list that is empty or has a non-trivial member (C164_minimized), and for minimize(db.base) in the middle if no two accepted implications have become equal (C164_minimize_base; the consequences are kept in any case). simple_closure variants: C164_simple, C164_complete. Fails: minimize(db.base) can make accepted implications equal, lin_closure counts them together and a valid implication is never asked (C164_minimize_base_violated); unconfirm_implication is left out (C164_unconfirm_violated); edit_attribute raises TypeError for a trivial list instead of an empty one (C164_empty_violated); examples of partial contexts are checked implication by implication (C164_partial_example_violated)."
  },
  {
   "property": "C165",
   "status": "proved",
   "theorems": [
    "C165_error",
    "C165_hundred",
    "C165_nonneg",
    "C165_underflow_violated",
    "C165_range_error",
    "C165_range_hundred",
    "C165_range_nonneg",
    "C165_range_underflow_violated",
    "C165_exp_arguments"
   ],
   "note": "Everything stated is proved, first for every library that is Libm.Accurate (C165_error, C165_hundred, C165_nonneg, C165_underflow_violated), then, under the names C165_range_..., for every library that is Libm.AccurateTo: the rounding is accurate up to a bound Omega only and beyond, where operations overflow, only its sign is known. The bound needed is 14 n (m+1) (1 + log n) and 18 n 2^n, below the largest double for n up to about 1000; no intermediate value leaves the range. C165_exp_arguments: math.exp is called with arguments that are not positive only, so it does not raise OverflowError, whatever the size. The underflow at 1100 objects is part of the statement."
  },
  {
   "property": "C166",
   "status": "partial",
   "theorems": [
    "C166_nested",
    "C166_restored",
    "C166_function_partial",
    "C166_method_violated",
    "C166_rows_violated"
   ],
   "note": "C166_nested: for read-only programs cond (nested computations allowed) the method returns dgBasisWith with the values of cond and restores the object. C166_restored: after any returning outermost computation, for all programs, rows and columns are answered from the current table. C166_function_partial: compute_dg_basis called as function with an expert condition without nested calls returns only implications of the domain that hold in the final context. C166_method_violated: through the method the result contains an implication refuted by the final context. C166_rows_violated: rows are stale in the same way, through nested computations and after one that raised. Missing: the method with conditions that change the context (false), conditions that change the list of attributes."
  },
  {
   "property": "C167",
   "status": "proved",
   "theorems": [
    "Cover.C167_cover",
    "Cover.C167_no_attributes",
    "Cover.C167_order",
    "Cover.C167_minimum",
    "Cover.C167_order_violated"
   ],
   "note": "C167_cover: the keys (premise, reduced conclusion) of the result are exactly (P, cl P minus P) for the left-minimal P, without repetition. C167_no_attributes: [{} -> {}]. C167_order: two iteration orders give permutations of the same keys. C167_minimum: no direct list of valid implications is shorter. C167_order_violated: the list itself depends on the order."
  },
  {
   "property": "C168",
   "status": "proved",
   "theorems": [
    "HashOrder.C168_mutators",
    "HashOrder.C168_primes",
    "HashOrder.C168_primes_all",
    "HashOrder.C168_primes_known",
    "HashOrder.C168_lin_closure",
    "HashOrder.C168_basis",
    "HashOrder.C168_basis_all",
    "HashOrder.C168_basis_known",
    "HashOrder.C168_partial_context",
    "HashOrder.C168_partial_context_all",
    "HashOrder.C168_indices",
    "HashOrder.C168_indices_all",
    "HashOrder.C168_separation_all",
    "HashOrder.C168_nominal_scale",
    "HashOrder.C168_factors_violated",
    "HashOrder.C168_fimi_violated",
    "HashOrder.C168_exception_violated"
   ],
   "note": "C168_mutators: all contexts. C168_primes, C168_basis, C168_indices: equality, exceptions included, for well-formed contexts with an object. C168_primes_all, C168_basis_all, C168_partial_context_all: for every context, well-formed or not, what returns in one order returns the same in every other. C168_primes_known, C168_basis_known: the exception is the same too if only names of attributes of the context occur. C168_indices_all: also without objects. C168_nominal_scale: equal by ==. The dependences named in the statement are proved with witnesses: algorithm2 finds 3 or 2 factors, write_fimi writes different texts, the exception without objects is IndexError or KeyError."
  },
  {
   "property": "C169",
   "status": "proved",
   "theorems": [
    "C169_basis",
    "C169_complete",
    "C169_add",
    "EDB.C169_start",
    "EDB.C169_dialog",
    "EDB.C169_open",
    "TotalExamples.C169_refuted_violated",
    "TotalExamples.C169_repeated_violated"
   ],
   "note": "For every well-formed context c and PartialContext with both tables equal to c. C169_basis: dgBasis equals computeDgBasis (lin_closure, background over the attributes, without repetitions) and computeDgBasisSimple (any background), xqAclosure equals the closure. C169_complete: state unchanged, ValueError iff an implication is not valid in c (conclusions over the attributes). C169_add: add with (B, B) and a new name. C169_start: the constructors. C169_dialog: for every list of calls in which confirmed implications are valid and new, states and exceptions of both databases correspond. C169_open: open implications are valid and new (default condition). The two _violated theorems show that the conditions on confirmed implications are needed."
  },
  {
   "property": "C170",
   "status": "proved",
   "theorems": [
    "ExplorationOrder.C170_basis",
    "ExplorationOrder.C170_history",
    "ExplorationOrder.C170_explore",
    "ExplorationOrder.C170_partial_context"
   ],
   "note": "Hypotheses: CObj.Shape (dimensions of the table fit, names may repeat) and at least one object. C170_basis: computeDgBasis and PCtx.dgBasis as results, exceptions included. C170_history: EDB.init, every run of calls, and every further call with its exception. C170_explore: explore and exploreQuestions for every fuel. C170_partial_context: PDB.make, every history of confirm/unconfirm/addExample/complete, and confirmAll/reject after it. The hypothesis on objects is needed: HashOrder.C168_exception_violated."
  },
  {
   "property": "C171",
   "status": "proved",
   "theorems": [
    "PCtx.C171_complete",
    "PCtx.C171_silent",
    "Cover.C171_cover"
   ],
   "note": "C171_complete: without its output completeOut is complete (C80), and its output is, object by object, diffLines of the rows before and after (also when it raises). C171_silent: no output iff no cell changed; silent on repetition after a call that returned. C171_cover: the result is that of computeCover, the output is two lines per object with the number of left-minimal sets with respect to the objects so far (attributes non-empty). The messages of factors.py:107, 162 are printed exactly before an AssertionError and are not modelled separately."
  },
  {
   "property": "C172",
   "status": "proved",
   "theorems": [
    "Ctx.C172_subcontexts",
    "Ctx.C172_filter_subcontext",
    "Ctx.C172_filters",
    "Ctx.C172_remove_empty",
    "Ctx.C172_complement_subcontext",
    "Ctx.C172_filter_complement",
    "Ctx.C172_clarify",
    "Ctx.C172_clarify_subcontext",
    "Ctx.C172_clarify_subcontext_violated",
    "Ctx.C172_product"
   ],
   "note": "Equations between results of the operations, as equality of the whole result (names, rows and shape of the array; for remove_empty_objects of a context without objects only names and rows). The last part of (6) is negative: C172_clarify_subcontext_violated gives a context where the kept names differ."
  },
  {
   "property": "C173",
   "status": "proved",
   "theorems": [
    "Cover.C173_cover",
    "Cover.C173_cover_derived",
    "AI.C173_incremental",
    "AI.C173_incremental_violated",
    "BExp.C173_basic_exploration",
    "PExp.C173_patterns",
    "PExp.C173_pattern_exploration"
   ],
   "note": "C173_incremental assumes objects in both contexts and that the sort permutes its list; its last part assumes that the sort leaves no set behind a proper superset, and C173_incremental_violated shows with the model of CPython's list.sort that this is needed. C173_basic_exploration needs no hypothesis on contexts and histories; the way list.sort orders the lists is the same in both runs. C173_pattern_exploration is for histories in which new objects get new names."
  },
  {
   "property": "C174",
   "status": "proved",
   "theorems": [
    "EDB.C174_add_example",
    "EDB.C174_confirm",
    "EDB.C174_reject",
    "EDB.C174_experts",
    "EDB.C174_examples",
    "EDB.C174_base_length"
   ],
   "note": "States are those reached from init by histories as in C57 (only open implications confirmed, edits with new names); the condition on premises is the default one. C174_base_length has the hypotheses of C59 with an empty background: the rendering of sets as names is injective and gives no name in use, the expert's implications hold in the context."
  },
  {
   "property": "C175",
   "status": "proved",
   "theorems": [
    "C175_method",
    "C175_once",
    "C175_canonical_reads",
    "C175_dg_reads",
    "C175_functions_violated",
    "C175_raises",
    "C175_object_free",
    "C175_stale_violated"
   ],
   "note": "Proved as stated. rowReads/columnReads list the executions of get_object_intent_by_index and get_attribute_extent_by_index that end without exception; C175_functions_violated and C175_stale_violated are witnesses for the last parts of the statement."
  },
  {
   "property": "C176",
   "status": "proved",
   "theorems": [
    "C176_rows",
    "C176_iterator_right_iff",
    "C176_context",
    "C176_iterator_add_violated",
    "C176_database_histories",
    "C176_database_background",
    "C176_database_kinds",
    "C176_pair_violates",
    "C176_pair_background_violated",
    "C176_session_histories",
    "C176_session_accepted",
    "C176_pair_session_violated",
    "C176_basic_histories",
    "C176_basic_confirmed",
    "C176_basic_kinds",
    "C176_patterns",
    "C176_pattern_iterator",
    "C176_edit_attribute_iterator",
    "C176_reject"
   ],
   "note": "Rows for all kinds of arguments, exactly; histories with such arguments are reduced to histories with sets (all states reachable from well-formed contexts with objects; names in edits and additions as in C55, C57, C60); the exceptions are given per kind for all states; the pair of sets is a general theorem (premise empty) with concrete violations beside it. Names are assumed not to be sets themselves; dictionaries and strings as intents are not modelled."
  },
  {
   "property": "C177",
   "status": "proved",
   "theorems": [
    "CObj.C177_construct",
    "CObj.C177_call",
    "CObj.C177_objects_stay",
    "CObj.C177_attributes_stay",
    "CObj.C177_history",
    "CObj.C177_objects_refused",
    "CObj.C177_attributes_refused",
    "CObj.C177_delete_object",
    "CObj.C177_delete_attribute",
    "CObj.C177_row_lost",
    "CObj.C177_stuck",
    "CObj.C177_column_lost",
    "CObj.C177_attributes_stuck",
    "C177_product",
    "Ctx.C177_text",
    "Ctx.C177_text_extent",
    "Ctx.C177_text_letters",
    "Ctx.C177_text_name",
    "Ctx.C177_set_text",
    "Ctx.C177_set_text_extent",
    "Ctx.C177_set_text_same",
    "C177_str_index",
    "Ctx.C177_get_value"
   ],
   "note": "Everything is proved. C177_objects_refused and C177_attributes_refused are for objects whose attributes fit together (C116); C177_delete_attribute has at least one object. Functions outside the class Context that read the names are not affected; compound and remove_empty_objects are not modelled for such names. Strings are lists of characters."
  },
  {
   "property": "C178",
   "status": "proved",
   "theorems": [
    "KImp.C178_read",
    "KImp.C178_unit_never",
    "KImp.C178_never_empty",
    "KImp.C178_reread",
    "KImp.C178_stable",
    "KImp.C178_unit_text",
    "KImp.C178_negative_text",
    "KImp.C178_negative_reread",
    "KImp.C178_negative_names",
    "KImp.C178_negative_order"
   ],
   "note": "Everything stated is proved. White space is any predicate on characters that holds for the blank and, for negative implications, not for n and the brackets."
  },
  {
   "property": "C179",
   "status": "proved",
   "theorems": [
    "Ctx.C179_family",
    "Ctx.C179_basis_size",
    "Ctx.C179_no_shorter_list",
    "Ctx.C179_one_attribute",
    "EDB.C179_exploration",
    "EDB.C179_exploration_attained"
   ],
   "note": "Everything is proved, for one family of contexts, one for each n. The names of the family are pairs; nothing depends on what names are."
  },
  {
   "property": "C180",
   "status": "proved",
   "theorems": [
    "Ctx.C180_theory_iff",
    "Ctx.C180_closed_sets",
    "Ctx.C180_irreducible_intents",
    "Ctx.C180_fewest_objects",
    "Ctx.C180_basis",
    "Ctx.C180_normal_form",
    "Ctx.C180_minimize"
   ],
   "note": "Everything is proved. Conclusions (for C180_minimize also premises) consist of attributes of the context. famCtx is the context whose objects are the given sets."
  },
  {
   "property": "C181",
   "status": "proved",
   "theorems": [
    "Ctx.C181_irreducible_counterexample",
    "EDB.C181_lower_bound",
    "EDB.C181_attained",
    "E2.C181_sessions",
    "BExp.C181_basic",
    "BExp.C181_basic_objects"
   ],
   "note": "Histories in the sense of C57: only open implications are confirmed and edits use an unused name; the condition of the basis is the default. Sessions: OkRun of C76, last session open with no candidates. BasicExploration: reachable states of C74 whose confirmed implications hold."
  },
  {
   "property": "C182",
   "status": "proved",
   "theorems": [
    "Ctx.C182_at_least",
    "Ctx.C182_basis",
    "Ctx.C182_cover_exponential"
   ],
   "note": ""
  }
 ]
}