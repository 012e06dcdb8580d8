# Axioms each theorem depends on

Made by `tools/axioms.sh` from `#print axioms`.

| theorem | axioms |
|---|---|
| CV.C01_subst_meaning | propext, Classical.choice, Quot.sound |
| CV.C01_one_var | propext, Quot.sound |
| CV.C01_quantifier_free | propext, Classical.choice, Quot.sound |
| CV.C01_capture_counterexample | propext, Classical.choice, Quot.sound |
| CV.C01_apply_substitution | propext, Classical.choice, Quot.sound |
| CV.C02_chain | propext, Quot.sound |
| CV.C02_translate_after | propext, Quot.sound |
| CV.C02_translate_add | propext, Quot.sound |
| CV.C02_chain_assoc | propext, Quot.sound |
| CV.C02_translate_zero | propext, Quot.sound |
| CV.C03_round_trip | propext |
| CV.C03_round_trip_frozen | propext, Quot.sound |
| CV.C03_same_variables | propext |
| CV.C03_same_formulas | propext, Quot.sound |
| CV.C03_first_match | propext, Classical.choice, Quot.sound |
| CV.C03_no_match | propext, Quot.sound |
| CV.C03_malformed_rejected | propext |
| CV.C04_used_vars | propext, Classical.choice, Quot.sound |
| CV.C04_used_vars_with | propext, Classical.choice, Quot.sound |
| CV.C04_all_terms | propext, Classical.choice, Quot.sound |
| CV.C04_depths | propext, Classical.choice, Quot.sound |
| CV.C04_free_vars | propext, Classical.choice, Quot.sound |
| CV.C04_free_vars_multiplicity | propext, Classical.choice, Quot.sound |
| CV.C05_fresh | propext, Classical.choice, Quot.sound |
| CV.C05_least | propext, Classical.choice, Quot.sound |
| CV.C05_fresh_formulas | propext, Classical.choice, Quot.sound |
| CV.C05_translate_disjoint | propext, Classical.choice, Quot.sound |
| CV.C05_translate_injective | propext, Quot.sound |
| CV.C05_sorts_to_variables | propext |
| CV.C05_translate_meaning | propext, Quot.sound |
| CV.C05_translate_quantified_counterexample | propext, Classical.choice, Quot.sound |
| CV.C06_outside_base | propext, Classical.choice, Quot.sound |
| CV.C06_injective | propext, Classical.choice, Quot.sound |
| CV.C06_unchanged | propext, Classical.choice, Quot.sound |
| CV.C06_others_unchanged | propext, Quot.sound |
| CV.C07_equalities_most_general_on | propext, Classical.choice, Quot.sound |
| CV.C07_linear_on_partial | propext, Classical.choice, Quot.sound |
| CV.C07_equalities_sound | propext, Classical.choice, Quot.sound |
| CV.C07_equalities_most_general | propext, Classical.choice, Quot.sound |
| CV.C07_to_variable | propext, Classical.choice, Quot.sound |
| CV.C07_diverges | propext, Classical.choice, Quot.sound |
| CV.C07_incomplete | propext, Classical.choice, Quot.sound |
| CV.C07_shared_variable_counterexample | propext, Classical.choice, Quot.sound |
| CV.C07_linear_partial | propext, Classical.choice, Quot.sound |
| CV.C08_adequate | propext, Quot.sound |
| CV.C08_order_axioms_partial | propext, Quot.sound |
| CV.C08_gt_axiom_false | propext, Quot.sound |
| CV.C08_gt_axiom_meaning | propext, Classical.choice, Quot.sound |
| CV.C08_order_generate_partial | propext, Classical.choice, Quot.sound |
| CV.C09_exhaustive_converse | propext, Classical.choice, Quot.sound |
| CV.C09_distinct | propext, Classical.choice, Quot.sound |
| CV.C09_exhaustive | propext, Classical.choice, Quot.sound |
| CV.C09_distinct_converse | propext, Classical.choice, Quot.sound |
| CV.C10_ordering | propext, Quot.sound |
| CV.C11_exec_recursive | propext, Classical.choice, Quot.sound |
| CV.C11_exec_recursive_sound | propext, Classical.choice, Quot.sound |
| CV.C11_direct_meaning | propext, Quot.sound |
| CV.C11_direct_counterexample | propext, Classical.choice, Quot.sound |
| CV.C12_determined | propext, Classical.choice, Quot.sound |
| CV.C12_replay_partial | propext, Classical.choice, Quot.sound |
| CV.C12_numbering | propext, Classical.choice, Quot.sound |
| CV.C12_undefined_counterexample | propext, Classical.choice, Quot.sound |
| CV.C12_clash_counterexample | propext, Classical.choice, Quot.sound |
| CV.C13_obligations | propext, Quot.sound |
| CV.C13_no_lemmas | propext, Quot.sound |
| CV.C13_sound | propext, Quot.sound |
| CV.C13_run_to_dir | propext, Quot.sound |
| CV.C13_run_to_file | propext |
| CV.SmtM.C14_sat_iff_model | propext, Classical.choice, Quot.sound |
| CV.SmtM.C14_unsat_iff_entailed | propext, Classical.choice, Quot.sound |
| CV.SmtM.C14_capture | propext, Classical.choice, Quot.sound |
| CV.SmtM.C14_z3_standard | propext, Quot.sound |
| CV.SmtM.C15_text | propext, Classical.choice, Quot.sound |
| CV.C16_round_proved | propext, Classical.choice, Quot.sound |
| CV.C16_round_disproved | propext, Classical.choice, Quot.sound |
| CV.C16_round_error | propext |
| CV.C16_round_undecided | propext |
| CV.C16_run_proved | propext, Classical.choice, Quot.sound |
| CV.C16_end_to_end | propext, Classical.choice, Quot.sound |
| CV.C17_failure | propext, Quot.sound |
| CV.C17_bounded | propext, Quot.sound |
| CV.C17_zero_retries | propext |
| CV.C17_discover | propext, Classical.choice, Quot.sound |
| CV.C17_progress | propext, Classical.choice, Quot.sound |
| CV.C17_no_discoverer_no_progress | propext |
| CV.C17_plain_runner_repeats | propext, Quot.sound |
| CV.C18_vampire | propext, Quot.sound |
| CV.C18_vampire_output_ignored | none |
| CV.C18_z3 | propext, Classical.choice, Quot.sound |
| CV.C18_z3_rest | propext, Classical.choice, Quot.sound |
| CV.C18_killed | propext, Classical.choice, Quot.sound |
| CV.Prs.C19_closed_partial | propext, Classical.choice, Quot.sound |
| CV.Prs.C19_scoped_partial | propext, Classical.choice, Quot.sound |
| CV.Prs.C19_recursive_let | propext, Quot.sound |
| CV.Prs.C19_let_leaks | propext, Quot.sound |
| CV.Prs.C20_interpretation_partial | propext, Classical.choice, Quot.sound |
| CV.Prs.C20_meaning_partial | propext, Classical.choice, Quot.sound |
| CV.Prs.C20_meaning_scoped_partial | propext, Classical.choice, Quot.sound |
| CV.Prs.C20_shadow_counterexample | propext, Classical.choice, Quot.sound |
| CV.Prs.C21_excess_ignored | propext, Quot.sound |
| CV.Prs.C21_enough_partial | propext, Quot.sound |
| CV.Prs.C21_too_few_rejected | propext, Quot.sound |
| CV.Prs.C21_macro_exact | propext, Quot.sound |
| CV.Prs.C21_excess_counterexample | propext, Quot.sound |
| CV.Prs.C22_and_partial | propext, Classical.choice, Quot.sound |
| CV.Prs.C22_or_partial | propext, Classical.choice, Quot.sound |
| CV.Prs.C22_hardEq_partial | propext, Classical.choice, Quot.sound |
| CV.Prs.C22_operands_dropped | propext, Quot.sound |
| CV.Prs.C22_sym_iff_diverges | propext, Quot.sound |
| CV.Prs.C23_macro_partial | propext, Classical.choice, Quot.sound |
| CV.Prs.C23_capture_counterexample | propext, Classical.choice, Quot.sound |
| CV.Prs.C24_problem | propext, Classical.choice, Quot.sound |
| CV.Prs.C24_accepted_iff | propext, Classical.choice, Quot.sound |
| CV.Dep.C25_reported_partial | propext, Classical.choice, Quot.sound |
| CV.Dep.C25_key_partial | propext, Classical.choice, Quot.sound |
| CV.Dep.C25_accepted_partial | propext, Classical.choice, Quot.sound |
| CV.Dep.C25_search_complete_partial | propext, Classical.choice, Quot.sound |
| CV.Dep.SEx.C26_clash_counterexample | propext, Quot.sound |
| CV.Dep.SEx.C26_cell_counterexample | propext, Quot.sound |
| CV.Dep.SEx.C26_exec_counterexample | propext, Quot.sound |
| CV.Dep.SEx.C26_hmac_counterexample | propext, Quot.sound |
| CV.Dep.C26_authenticated_partial | propext, Classical.choice, Quot.sound |
| CV.Dep.C26_authenticated_hmac_partial | propext, Classical.choice, Quot.sound |
| CV.Dep.C26_search_complete_partial | propext, Classical.choice, Quot.sound |
| CV.Cry.CEx.C27_general_counterexample | propext, Classical.choice, Quot.sound |
| CV.Cry.CEx.C27_signature_counterexample | propext, Classical.choice, Quot.sound |
| CV.Cry.C27_general_says | propext, Quot.sound |
| CV.Dep.C28_ancestors_partial | propext, Classical.choice, Quot.sound |
| CV.Dep.C28_cell_partial | propext, Classical.choice, Quot.sound |
| CV.Dep.C28_input_partial | propext, Classical.choice, Quot.sound |
| CV.Dep.C28_preprocessed_partial | propext, Classical.choice, Quot.sound |
| CV.Dep.Ex.C28_cell_counterexample | propext |
| CV.Dep.Ex.C28_input_counterexample | propext |
| CV.Dep.Ex.C28_quantifier_counterexample | propext |
| CV.Dep.Ex.C28_diverges | propext, Quot.sound |
| CV.Dep.C29_loaded | propext, Classical.choice, Quot.sound |
| CV.Dep.C29_numbered_from_one_partial | propext, Classical.choice, Quot.sound |
| CV.Dep.C29_unchanged | propext, Classical.choice, Quot.sound |
| CV.Dep.C29_counterexample | propext |
| CV.Dep.SEx.C30_step_macro_counterexample | propext |
| CV.Dep.SEx.C30_msg_diverges | propext, Quot.sound |
| CV.Dep.SEx.C30_quantifier_counterexample | propext |
| CV.Dep.SEx.C30_exec_counterexample | propext |
| CV.Dep.C30_input | propext, Classical.choice, Quot.sound |
| CV.Dep.C30_cell | propext, Classical.choice, Quot.sound |
| CV.Dep.C30_step_macro_partial | propext, Classical.choice, Quot.sound |
| CV.Dep.C30_quantifier_partial | propext, Classical.choice, Quot.sound |
| CV.Dep.C30_exec | propext, Classical.choice, Quot.sound |
| CV.Dep.C31_into_exist_partial | propext, Classical.choice, Quot.sound |
| CV.Dep.C31_search_partial | propext, Classical.choice, Quot.sound |
| CV.Dep.ExEx.C31_capture_counterexample | propext |
| CV.Dep.ExEx.C31_empty_sort_counterexample | propext |
| CV.Ev.EvEx.C32_legacy_counterexample | propext, Classical.choice, Quot.sound |
| CV.Ev.C32_sound_partial | propext, Classical.choice, Quot.sound |
| CV.Ev.C32_sound_no_find_partial | propext, Classical.choice, Quot.sound |
| CV.Ev.C32_total | propext, Classical.choice, Quot.sound |
| CV.Ev.EvEx.C33_variable_counterexample | propext, Classical.choice, Quot.sound |
| CV.Ev.EvEx.C33_quantifier_counterexample | propext, Classical.choice, Quot.sound |
| CV.Ev.C33_propagate_partial | propext, Classical.choice, Quot.sound |
| CV.Ev.C33_under_function | propext, Quot.sound |
| CV.Ev.C33_quantifier_panic | propext |
| CV.Prs.C34_agree | propext |
| CV.Prs.C34_unify | propext, Quot.sound |
| CV.Prs.C34_never_changes | propext, Quot.sound |
| CV.Prs.C34_sig_sound | propext, Quot.sound |
| CV.Prs.C34_sig_complete | propext, Quot.sound |
| CV.Prs.C34_sig_declared | propext, Quot.sound |
| CV.Sq.C35_reversed | propext, Classical.choice, Quot.sound |
| CV.Sq.C35_middle_partial | propext, Classical.choice, Quot.sound |
| CV.Sq.C35_counterexample | propext, Classical.choice, Quot.sound |
| CV.Sq.C36_projection | propext, Classical.choice, Quot.sound |
| CV.Sq.C36_total | propext, Classical.choice, Quot.sound |
| CV.Sq.C36_no_panic | propext, Classical.choice, Quot.sound |
| CV.Sq.C36_tuple_counterexample | propext, Classical.choice, Quot.sound |
| CV.Sq.C36_unused_branch_counterexample | propext, Classical.choice, Quot.sound |
| CV.Sq.C37_sanitize | propext, Classical.choice, Quot.sound |
| CV.Sq.C37_prefix | none |
| CV.Sq.C37_no_builtin | propext, Classical.choice, Quot.sound |
| CV.Sq.C37_path | propext, Classical.choice, Quot.sound |
| CV.Sq.C37_path_sanitize | propext, Classical.choice, Quot.sound |
| CV.Sq.C37_counterexample | propext, Classical.choice, Quot.sound |
| CV.Sq.C38_depends_iff | propext, Quot.sound |
| CV.Sq.C38_strict_order | propext, Quot.sound |
| CV.Sq.C38_mutex_iff | propext, Quot.sound |
| CV.Sq.C38_mutex_symm | propext, Quot.sound |
| CV.Sq.C38_disjoint | propext, Quot.sound |
| CV.Sq.C38_depends_lemma | propext, Classical.choice, Quot.sound |
| CV.Sq.C38_mutex_lemma | propext, Classical.choice, Quot.sound |
| CV.Sq.C38_no_lemma | propext, Classical.choice, Quot.sound |
| CV.Sq.C38_all_pairs | propext, Classical.choice, Quot.sound |
| CV.Sq.C38_dummy_panics | propext, Classical.choice, Quot.sound |
| CV.Sq.C39_accumulates | propext, Quot.sound |
| CV.Sq.C39_first_partial | propext, Quot.sound |
| CV.Sq.C39_counterexample | propext |
| CV.Utl.C40_arc | propext, Classical.choice, Quot.sound |
| CV.Utl.C40_each_once | propext, Classical.choice, Quot.sound |
| CV.Utl.C40_fused | propext, Classical.choice, Quot.sound |
| CV.Utl.C40_collect | propext |
| CV.Utl.C40_vecref | propext, Classical.choice, Quot.sound |
| CV.Utl.C40_vecrefclone | propext, Classical.choice, Quot.sound |
| CV.Utl.C40_extend | propext, Quot.sound |
| CV.Utl.C41_get | propext |
| CV.Utl.C41_len_iff | propext, Quot.sound |
| CV.Utl.C41_len_partial | propext, Quot.sound |
| CV.Utl.C41_single_counterexample | propext |
| CV.Cont.C42_distinct_partial | propext, Classical.choice, Quot.sound |
| CV.Cont.C42_wraps | propext, Quot.sound |
| CV.Cont.C42_fresh | propext, Classical.choice, Quot.sound |
| CV.Cont.C42_available_inverted | propext, Quot.sound |
| CV.Cont.C43_first_content | propext, Quot.sound |
| CV.Cont.C43_once | propext, Quot.sound |
| CV.Cont.C43_alloc | propext, Quot.sound |
| CV.Cont.C43_cyclic | propext, Quot.sound |
| CV.Cont.C43_multiple | propext, Classical.choice, Quot.sound |
| CV.Cont.C43_compare | propext, Classical.choice, Quot.sound |
| CV.Cli.C44_global_partial | propext, Quot.sound |
| CV.Cli.C44_plan | propext, Quot.sound |
| CV.Cli.C44_default_differs | propext, Quot.sound |
| CV.Cli.C44_disabled | propext, Quot.sound |
| CV.Cli.C44_load_partial | propext, Quot.sound |
| CV.Cli.C44_no_effect | propext, Quot.sound |
| CV.Cli.C44_cvc5_partial | propext, Quot.sound |
| CV.Cli.C44_output | propext |
| CV.Prs.C45_recognised_partial | propext, Classical.choice, Quot.sound |
| CV.Prs.C45_unknown_accepted | propext |
| CV.Prs.C45_recursive_ignored | propext |
| CV.Cry.C46_ev_function | propext, Classical.choice, Quot.sound |
| CV.Cry.C46_ev_not_of_sort | propext, Quot.sound |
| CV.Cry.C46_ev_special_partial | propext, Classical.choice, Quot.sound |
| CV.Cry.C46_ev_names | propext, Classical.choice, Quot.sound |
| CV.Cry.C46_nonce_evaluated_partial | propext, Classical.choice, Quot.sound |
| CV.Cry.TEx.C46_exec_counterexample | propext, Classical.choice, Quot.sound |
| CV.Cry.TEx.C46_capture_counterexample | propext, Classical.choice, Quot.sound |
| CV.Cry.TEx.C46_message_argument_counterexample | propext, Classical.choice, Quot.sound |
| CV.Cry.C46_function | propext, Classical.choice, Quot.sound |
| CV.Cry.C46_not_of_sort | propext, Quot.sound |
| CV.Cry.C46_fresh | propext, Classical.choice, Quot.sound |
| CV.Cry.C46_special_partial | propext, Classical.choice, Quot.sound |
| CV.Cry.C46_names | propext, Quot.sound |
| CV.Cry.C46_nonce_partial | propext, Classical.choice, Quot.sound |
| CV.C47_new | propext, Classical.choice, Quot.sound |
| CV.C48_quoted_iff_partial | propext, Classical.choice, Quot.sound |
| CV.C48_unquoted | propext |
| CV.C48_panics_iff | propext, Quot.sound |
| CV.C48_counterexample | propext, Classical.choice, Quot.sound |
| CV.C49_msg_cond | propext, Classical.choice, Quot.sound |
| CV.C49_always_emitted | propext, Quot.sound |
| CV.Conc.C50_terminates | propext, Quot.sound |
| CV.Conc.C50_bound | propext, Quot.sound |
| CV.Conc.C50_no_deadlock | propext, Classical.choice, Quot.sound |
| CV.Conc.C50_clean_exit | propext, Quot.sound |
| CV.Conc.C50_no_lost_child | propext, Quot.sound |
| CV.Conc.C50_verdict | propext, Classical.choice, Quot.sound |
| CV.C51_transpose | propext, Quot.sound |
| CV.C51_bind | propext, Quot.sound |
| CV.C51_widths | propext, Quot.sound |
| CV.C51_one | propext, Quot.sound |
| CV.Prs.C52_no_panic | propext, Quot.sound |
| CV.Prs.C52_needs_grammar | propext, Quot.sound |
| CV.Prs.C53_unique | propext, Quot.sound |
| CV.Prs.C53_terminates_partial | propext, Quot.sound |
| CV.Prs.C53_circular_macro | propext, Classical.choice, Quot.sound |
| CV.Prs.C54_steps_partial | propext, Classical.choice, Quot.sound |
| CV.Prs.C54_msg_cond_partial | propext, Classical.choice, Quot.sound |
| CV.Prs.C55_orders_partial | propext, Classical.choice, Quot.sound |
| CV.Prs.C56_no_panic_partial | propext, Classical.choice, Quot.sound |
| CV.Prs.C56_bitstring_panics | propext, Quot.sound |
| CV.Prs.C57_names | propext, Classical.choice, Quot.sound |
| CV.Prs.C57_signatures | propext, Classical.choice, Quot.sound |
| CV.Prs.C57_order | propext, Classical.choice, Quot.sound |
| CV.Prs.C58_arguments_partial | propext, Classical.choice, Quot.sound |
| CV.Prs.C58_arguments_unchecked | propext, Quot.sound |
| CV.Cont.C59_names_partial | propext, Classical.choice, Quot.sound |
| CV.Cont.C59_evaluate_clash | propext, Classical.choice, Quot.sound |
| CV.Ev.EvEx.C60_negation_counterexample | propext, Classical.choice, Quot.sound |
| CV.Ev.C60_base | propext, Classical.choice, Quot.sound |
| CV.Ev.C60_connective | propext, Classical.choice, Quot.sound |
| CV.Ev.C60_eq_ite | propext, Classical.choice, Quot.sound |
| CV.Ev.C60_not_quantifier_partial | propext, Classical.choice, Quot.sound |
| CV.Cry.CEx.C61_message_variable_counterexample | propext, Classical.choice, Quot.sound |
| CV.Cry.C61_mac_partial | propext, Classical.choice, Quot.sound |
| CV.Cry.C61_hmac_partial | propext, Classical.choice, Quot.sound |
| CV.Cry.C61_mac_correct | propext, Quot.sound |
| CV.Cry.C61_signature_partial | propext, Classical.choice, Quot.sound |
| CV.Cry.C62_mac_found | propext, Classical.choice, Quot.sound |
| CV.Cry.C62_mac_says_partial | propext, Classical.choice, Quot.sound |
| CV.Cry.C62_signature_found | propext, Classical.choice, Quot.sound |
| CV.Cry.C62_signature_says_partial | propext, Classical.choice, Quot.sound |
| CV.Cry.CEx.C62_hidden_counterexample | propext |
| CV.Cry.C63_ctxt_partial | propext, Classical.choice, Quot.sound |
| CV.Cry.TEx.C63_ignored_counterexample | propext, Classical.choice, Quot.sound |
| CV.Cry.C63_define_partial | propext, Classical.choice, Quot.sound |
| CV.Cry.C63_mac_partial | propext, Classical.choice, Quot.sound |
| CV.Cry.C63_signature_partial | propext, Classical.choice, Quot.sound |
| CV.Cry.IEx.C64_hidden_counterexample | propext |
| CV.Cry.IEx.C64_reuse_counterexample | propext, Classical.choice, Quot.sound |
| CV.Cry.IEx.C64_leak_counterexample | propext, Classical.choice, Quot.sound |
| CV.Cry.IEx.C64_open_counterexample | propext, Quot.sound |
| CV.Cry.C64_general_ill_sorted | propext |
| CV.Cry.C64_instance_partial | propext, Classical.choice, Quot.sound |
| CV.Cry.C64_found | propext, Classical.choice, Quot.sound |
| CV.Cry.C64_says_partial | propext, Classical.choice, Quot.sound |
| CV.Cry.C64_correct | propext, Quot.sound |
| CV.Cry.C64_encryptions_partial | propext, Quot.sound |
| CV.Cry.C64_pairs_partial | propext, Classical.choice, Quot.sound |
| CV.Cry.C64_general_says | propext, Quot.sound |
| CV.Cry.C65_function | propext, Classical.choice, Quot.sound |
| CV.Cry.C65_not_of_sort | propext, Quot.sound |
| CV.Cry.C65_define | propext, Classical.choice, Quot.sound |
| CV.Cry.C65_nonce | propext, Classical.choice, Quot.sound |
| CV.Cry.C65_special_partial | propext, Classical.choice, Quot.sound |
| CV.Cry.C65_covered | propext, Quot.sound |
| CV.Cry.C65_predicates | propext |
| CV.Cry.C65_occurs_partial | propext, Classical.choice, Quot.sound |
| CV.Dep.C66_reported_partial | propext, Classical.choice, Quot.sound |
| CV.C67_enumerates_partial | propext, Classical.choice, Quot.sound |
| CV.C67_contents_counterexample | propext, Quot.sound |
| CV.C67_diverges | propext, Classical.choice, Quot.sound |
| CV.Cry.C67_mac_fresh_partial | propext, Classical.choice, Quot.sound |
| CV.Cry.C67_signature_fresh_partial | propext, Classical.choice, Quot.sound |
| CV.Cry.C67_cipher_fresh_partial | propext, Classical.choice, Quot.sound |
| CV.Cry.CEx.C67_clash_counterexample | propext, Quot.sound |
| CV.Disc.Ex.C68_sorts_counterexample | propext, Quot.sound |
| CV.Disc.Ex.C68_arity_counterexample | propext |
| CV.Disc.Ex.C68_equality_counterexample | propext |
| CV.Disc.Ex.C68_evaluated_lost | propext, Quot.sound |
| CV.Disc.Ex.C68_false_axiom_counterexample | propext, Classical.choice, Quot.sound |
| CV.Disc.C68_generalises_debug | propext, Classical.choice, Quot.sound |
| CV.Disc.C68_generalises_partial | propext, Classical.choice, Quot.sound |
| CV.Disc.C68_sorted_partial | propext, Quot.sound |
| CV.Disc.C68_accepts | propext, Quot.sound |
| CV.Disc.C68_unknown_lost | propext, Quot.sound |
| CV.Disc.C68_ite_lost | propext, Quot.sound |
| CV.Disc.C68_search | propext, Quot.sound |
| CV.Ind.C69_bubble | propext, Classical.choice, Quot.sound |
| CV.Ind.C69_general_partial | propext, Classical.choice, Quot.sound |
| CV.Ind.C69_unsound | propext |
| CV.Ind.C69_equalities | propext, Quot.sound |
| CV.Ind.C69_collapse | propext, Classical.choice, Quot.sound |
| CV.Ind.Ex.C70_copy_counterexample | propext, Classical.choice, Quot.sound |
| CV.Ind.Ex.C70_kp_randomness_counterexample | propext, Classical.choice, Quot.sound |
| CV.Ind.Ex.C70_input_counterexample | propext, Classical.choice, Quot.sound |
| CV.Ind.Ex.C70_cycle_counterexample | propext, Classical.choice, Quot.sound |
| CV.Ind.C70_cca_partial | propext, Quot.sound |
| CV.Ind.C70_kp_partial | propext, Classical.choice, Quot.sound |
| CV.Ind.C70_cca_single_partial | propext, Quot.sound |
| CV.Ind.C70_kp_single_partial | propext, Classical.choice, Quot.sound |
| CV.Ind.C70_ends | propext, Classical.choice, Quot.sound |
| CV.Ind.C70_cca_complete_partial | propext, Classical.choice, Quot.sound |
| CV.Ind.C70_kp_complete_partial | propext, Classical.choice, Quot.sound |
| CV.Gen.C71_declared_once | propext, Classical.choice, Quot.sound |
| CV.Gen.C71_datatypes | propext, Classical.choice, Quot.sound |
| CV.Gen.C71_sorts_declared | propext, Classical.choice, Quot.sound |
| CV.Gen.C71_name_sort_counterexample | propext, Classical.choice, Quot.sound |
| CV.Gen.C71_evaluated_counterexample | propext, Classical.choice, Quot.sound |
| CV.Gen.C71_sorts_once | propext, Classical.choice, Quot.sound |
| CV.Gen.C71_time | propext, Classical.choice, Quot.sound |
| CV.Gen.C71_enough_partial | propext, Classical.choice, Quot.sound |
| CV.Gen.C71_sound_partial | propext, Classical.choice, Quot.sound |
| CV.Gen.C71_proved_partial | propext, Classical.choice, Quot.sound |
| CV.Gen.C71_cells_counterexample | propext, Classical.choice, Quot.sound |
| CV.C72_lost_assignment_counterexample | propext, Classical.choice, Quot.sound |
| CV.C72_swallowed_counterexample | propext, Classical.choice, Quot.sound |
| CV.C72_option_counterexample | propext, Classical.choice, Quot.sound |
| CV.C72_msg_counterexample | propext, Classical.choice, Quot.sound |
| CV.C72_neq_counterexample | propext, Classical.choice, Quot.sound |
| CV.C72_keyword_counterexample | propext, Classical.choice, Quot.sound |
| CV.C72_unambiguous | propext, Classical.choice, Quot.sound |
| CV.C72_layout | propext, Classical.choice, Quot.sound |
| CV.C72_file_read | propext, Classical.choice, Quot.sound |
| CV.C73_reading_ends | propext, Classical.choice, Quot.sound |
| CV.C74_options_counterexample | propext, Classical.choice, Quot.sound |
| CV.C74_msg_counterexample | propext, Classical.choice, Quot.sound |
| CV.C74_find_counterexample | propext, Classical.choice, Quot.sound |
| CV.C74_crashes | propext, Classical.choice, Quot.sound |
| CV.C74_accepts | propext, Classical.choice, Quot.sound |
| CV.C74_no_crash | propext, Classical.choice, Quot.sound |
| CV.Txt2.C75_read_back | propext, Classical.choice, Quot.sound |
| CV.Txt2.C75_builds_agree | propext, Classical.choice, Quot.sound |
| CV.Txt2.C75_read_back_good | propext, Classical.choice, Quot.sound |
| CV.Txt2.C75_dropped_counterexample | propext, Classical.choice, Quot.sound |
| CV.C76_print_read_partial | propext, Classical.choice, Quot.sound |
| CV.C76_guard_counterexample | propext, Classical.choice, Quot.sound |
| CV.C76_options_counterexample | propext, Classical.choice, Quot.sound |
| CV.C76_arguments_counterexample | propext, Classical.choice, Quot.sound |
| CV.C76_step_counterexample | propext, Classical.choice, Quot.sound |
| CV.C76_infix_counterexample | propext, Classical.choice, Quot.sound |
| CV.C76_sanitized | propext, Classical.choice, Quot.sound |
| CV.C76_sanitized_counterexample | propext, Classical.choice, Quot.sound |
| CV.C76_squirrel | propext, Classical.choice, Quot.sound |
| CV.Sq.C77_projection | propext, Classical.choice, Quot.sound |
| CV.Sq.C77_total | propext, Classical.choice, Quot.sound |
| CV.Sq.C77_no_panic | propext, Classical.choice, Quot.sound |
| CV.Sq.C77_update_counterexample | propext, Classical.choice, Quot.sound |
| CV.Sq.C77_panic_counterexample | propext, Classical.choice, Quot.sound |
| CV.Txt2.C78_text | propext, Classical.choice, Quot.sound |
| CV.Txt2.C78_crashes | propext, Classical.choice, Quot.sound |
| CV.Txt2.C78_no_crash | propext, Classical.choice, Quot.sound |
| CV.Txt2.C78_problem | propext, Classical.choice, Quot.sound |
| CV.Txt2.C78_crash_counterexample | propext, Classical.choice, Quot.sound |
| CV.Sq.C79_interpretation | propext, Classical.choice, Quot.sound |
| CV.Sq.C79_meaning | propext, Classical.choice, Quot.sound |
| CV.Sq.C79_conversion | propext, Classical.choice, Quot.sound |
| CV.Sq.C79_subtype_counterexample | propext, Classical.choice, Quot.sound |
| CV.Sq.C80_contents | propext, Classical.choice, Quot.sound |
| CV.Sq.C80_sound_partial | propext, Classical.choice, Quot.sound |
| CV.Sq.C80_valid_partial | propext, Classical.choice, Quot.sound |
| CV.Sq.C80_own_input_counterexample | propext, Classical.choice, Quot.sound |
| CV.Sq.C80_trace_sound_partial | propext, Classical.choice, Quot.sound |
| CV.Sq.C80_trace_valid_partial | propext, Classical.choice, Quot.sound |
| CV.Sq.C81_reads_partial | propext, Classical.choice, Quot.sound |
| CV.Sq.C81_unique | propext, Classical.choice, Quot.sound |
| CV.Sq.C81_roundtrip_partial | propext, Classical.choice, Quot.sound |
| CV.Sq.C81_depth | propext, Classical.choice, Quot.sound |
| CV.Sq.C81_depth_counterexample | propext, Classical.choice, Quot.sound |
| CV.Sq.C81_tag_counterexample | propext, Classical.choice, Quot.sound |
| CV.Sq.C81_last | propext, Quot.sound |
| CV.Sq.C81_tables | propext, Quot.sound |
| CV.Sq.C81_valid_partial | propext, Classical.choice, Quot.sound |
| CV.Prs.C82_term | propext, Classical.choice, Quot.sound |
| CV.Prs.C82_outcome | propext, Quot.sound |
| CV.Prs.C82_accepted | propext, Classical.choice, Quot.sound |
| CV.Prs.C82_text | propext, Classical.choice, Quot.sound |
| CV.Prs.C82_index_counterexample | propext, Classical.choice, Quot.sound |
| CV.Prs.C82_mixed_counterexample | propext, Quot.sound |
| CV.Prs.C83_term_partial | propext, Classical.choice, Quot.sound |
| CV.Prs.C83_file_partial | propext, Classical.choice, Quot.sound |
| CV.Prs.C83_accepted_partial | propext, Classical.choice, Quot.sound |
| CV.Prs.C83_equality_counterexample | propext, Classical.choice, Quot.sound |
| CV.Prs.C83_let_counterexample | propext, Quot.sound |
| CV.Dcl.C84_same_protocol | propext, Classical.choice, Quot.sound |
| CV.Bld.C84_execution_partial | propext, Classical.choice, Quot.sound |
| CV.Bld.C84_assumptions_partial | propext, Classical.choice, Quot.sound |
| CV.Bld.C84_sound_partial | propext, Classical.choice, Quot.sound |
| CV.Bld.C84_proved_partial | propext, Classical.choice, Quot.sound |
| CV.Loc.C85_tree_iff | propext, Quot.sound |
| CV.Loc.C85_tree_otherwise | propext, Quot.sound |
| CV.Loc.C85_conversion | propext, Quot.sound |
| CV.Loc.C85_position | propext, Quot.sound |
| CV.Loc.C85_syntax | propext, Quot.sound |
| CV.Loc.C85_nowhere | propext |
| CV.Loc.C85_nameless | propext |
| CV.Loc.C85_tree_counterexample | propext, Classical.choice, Quot.sound |
| CV.Loc.C85_conversion_counterexample | propext, Classical.choice, Quot.sound |
| CV.Key.C86_key | propext, Classical.choice, Quot.sound |
| CV.Key.C86_contents | propext |
| CV.Key.C86_refused | propext |
| CV.Key.C86_map | propext, Classical.choice, Quot.sound |
| CV.Key.C86_lookup | propext, Classical.choice, Quot.sound |
| CV.Key.C86_lost_counterexample | propext |
| CV.Key.C86_owned_counterexample | propext |
| CV.Key.C86_owned_partial | propext |
| CV.Key.C87_exact | propext, Quot.sound |
| CV.Key.C87_results_partial | propext, Quot.sound |
| CV.Key.C87_results_iff | propext, Classical.choice, Quot.sound |
| CV.Key.C87_too_many_counterexample | none |
| CV.Key.C87_forgotten_counterexample | none |
| CV.Key.C87_options | none |
| CV.Sq.C88_orders | propext, Classical.choice, Quot.sound |
| CV.Sq.C88_exact | propext, Classical.choice, Quot.sound |
| CV.Sq.C88_choice_counterexample | propext, Classical.choice, Quot.sound |
| CV.Sq.C88_names_counterexample | propext, Classical.choice, Quot.sound |
| CV.Scp.C89_declared_partial | propext, Classical.choice, Quot.sound |
| CV.Scp.C89_cells | propext, Classical.choice, Quot.sound |
| CV.Scp.C89_counterexample | propext, Quot.sound |
| CV.Scp.C89_squirrel_operators_counterexample | propext, Classical.choice, Quot.sound |
| CV.Dcl.C90_declared | propext, Classical.choice, Quot.sound |
| CV.Dcl.C90_sorts_partial | propext, Classical.choice, Quot.sound |
| CV.Dcl.C90_signatures | propext, Classical.choice, Quot.sound |
| CV.Dcl.C90_name_sort_counterexample | propext, Classical.choice, Quot.sound |
| CV.Dcl.C90_step_functions_counterexample | propext, Classical.choice, Quot.sound |
| CV.Fls.C91_file | propext, Classical.choice, Quot.sound |
| CV.Fls.C91_dir | propext, Classical.choice, Quot.sound |
| CV.Fls.C91_squirrel_lemmas_partial | propext, Classical.choice, Quot.sound |
| CV.Fls.C91_side_by_side_counterexample | propext, Classical.choice, Quot.sound |
| CV.Fls.C91_squirrel_one_partial | propext, Classical.choice, Quot.sound |
| CV.Fls.C91_squirrel_file_counterexample | propext, Classical.choice, Quot.sound |
| CV.Fls.C91_squirrel_stdout_counterexample | propext, Classical.choice, Quot.sound |
| CV.Fls.C91_overwrite | propext, Classical.choice, Quot.sound |
| CV.Fls.C91_keeps | propext, Classical.choice, Quot.sound |
| CV.Fls.C91_squirrel_keeps | propext, Classical.choice, Quot.sound |
| CV.Bld.C92_command_line_partial | propext, Classical.choice, Quot.sound |
| CV.Bld.Clash.C92_distinct_counterexample | propext, Classical.choice, Quot.sound |
| CV.Bld.Clash.C92_variable_counterexample | propext, Classical.choice, Quot.sound |
| CV.Bld.Clash.C92_sort_counterexample | propext, Classical.choice, Quot.sound |
| CV.Bld.Clash.C92_symbol_counterexample | propext, Classical.choice, Quot.sound |
| CV.Bld.Clash.C92_undeclared_counterexample | propext, Classical.choice, Quot.sound |
| CV.Bld.C92_proved_partial | propext, Classical.choice, Quot.sound |
| CV.Slv.C93_vampire_args | propext, Classical.choice, Quot.sound |
| CV.Slv.C93_args_injective | propext, Classical.choice, Quot.sound |
| CV.Slv.C93_called | propext, Classical.choice, Quot.sound |
| CV.Slv.C93_running | propext, Classical.choice, Quot.sound |
| CV.Slv.C93_untouched | propext, Classical.choice, Quot.sound |
| CV.Slv.C93_clean | propext, Classical.choice, Quot.sound |
| CV.Slv.C93_kept_partial | propext, Classical.choice, Quot.sound |
| CV.Slv.C93_stays | propext, Classical.choice, Quot.sound |
| CV.Slv.C93_relative_counterexample | propext, Classical.choice, Quot.sound |
| CV.Slv.C93_elsewhere_counterexample | propext, Classical.choice, Quot.sound |
| CV.Slv.C93_starts | propext, Classical.choice, Quot.sound |
| CV.Slv.C93_starts_saved | propext, Classical.choice, Quot.sound |
| CV.Slv.C93_solvers | propext, Classical.choice, Quot.sound |
| CV.Slv.C93_command | propext, Classical.choice, Quot.sound |
| CV.Bld.C94_command_line_partial | propext, Classical.choice, Quot.sound |
| CV.Bld.C94_switches_counterexample | propext, Classical.choice, Quot.sound |
| CV.Bld.C94_declarations | propext, Classical.choice, Quot.sound |
| CV.Bld.C94_predicates | propext, Quot.sound |
| CV.Bld.C94_destructors | propext, Quot.sound |
| CV.Bld.C94_skolems | propext |
| CV.Bld.C94_symbols_partial | propext, Classical.choice, Quot.sound |
| CV.Bld.C94_used_partial | propext, Classical.choice, Quot.sound |
| CV.Bld.C94_used_symbolic_partial | propext, Classical.choice, Quot.sound |
| CV.Bld.C94_used_declared_partial | propext, Classical.choice, Quot.sound |
| CV.Bld.C94_subterm_counterexample | propext, Classical.choice, Quot.sound |
