{
 "claims": [
  {
   "property": "C01",
   "status": "partial",
   "theorems": [
    "CV.C01_subst_meaning",
    "CV.C01_one_var",
    "CV.C01_quantifier_free",
    "CV.C01_capture_counterexample",
    "CV.C01_apply_substitution"
   ],
   "note": "Substitution has the expected meaning for all formulas whose bound variables do not occur in the substituted terms; the code is not capture avoiding (C01_capture_counterexample)."
  },
  {
   "property": "C02",
   "status": "proved",
   "theorems": [
    "CV.C02_chain",
    "CV.C02_translate_after",
    "CV.C02_translate_add",
    "CV.C02_chain_assoc",
    "CV.C02_translate_zero"
   ],
   "note": ""
  },
  {
   "property": "C03",
   "status": "proved",
   "theorems": [
    "CV.C03_round_trip",
    "CV.C03_round_trip_frozen",
    "CV.C03_same_variables",
    "CV.C03_same_formulas",
    "CV.C03_first_match",
    "CV.C03_no_match",
    "CV.C03_malformed_rejected"
   ],
   "note": ""
  },
  {
   "property": "C04",
   "status": "proved",
   "theorems": [
    "CV.C04_used_vars",
    "CV.C04_used_vars_with",
    "CV.C04_all_terms",
    "CV.C04_depths",
    "CV.C04_free_vars",
    "CV.C04_free_vars_multiplicity"
   ],
   "note": ""
  },
  {
   "property": "C05",
   "status": "partial",
   "theorems": [
    "CV.C05_fresh",
    "CV.C05_least",
    "CV.C05_fresh_formulas",
    "CV.C05_translate_disjoint",
    "CV.C05_translate_injective",
    "CV.C05_sorts_to_variables",
    "CV.C05_translate_meaning",
    "CV.C05_translate_quantified_counterexample"
   ],
   "note": "Fresh numbers are fresh; translation keeps the meaning on quantifier-free formulas and fails under quantifiers (C05_translate_quantified_counterexample)."
  },
  {
   "property": "C06",
   "status": "proved",
   "theorems": [
    "CV.C06_outside_base",
    "CV.C06_injective",
    "CV.C06_unchanged",
    "CV.C06_others_unchanged"
   ],
   "note": ""
  },
  {
   "property": "C07",
   "status": "partial",
   "theorems": [
    "CV.C07_equalities_most_general_on",
    "CV.C07_linear_on_partial",
    "CV.C07_equalities_sound",
    "CV.C07_equalities_most_general",
    "CV.C07_to_variable",
    "CV.C07_diverges",
    "CV.C07_incomplete",
    "CV.C07_shared_variable_counterexample",
    "CV.C07_linear_partial"
   ],
   "note": "Every equality set returned is sound and most general; termination and completeness fail (C07_diverges, C07_incomplete), soundness as a substitution proved for linear patterns (C07_linear_partial), false when variables are shared (C07_shared_variable_counterexample)."
  },
  {
   "property": "C08",
   "status": "partial",
   "theorems": [
    "CV.C08_adequate",
    "CV.C08_order_axioms_partial",
    "CV.C08_gt_axiom_false",
    "CV.C08_gt_axiom_meaning",
    "CV.C08_order_generate_partial"
   ],
   "note": "All order axioms but the gt axiom hold in every execution; the gt axiom is false in every execution (C08_gt_axiom_false)."
  },
  {
   "property": "C09",
   "status": "proved",
   "theorems": [
    "CV.C09_exhaustive_converse",
    "CV.C09_distinct",
    "CV.C09_exhaustive",
    "CV.C09_distinct_converse"
   ],
   "note": ""
  },
  {
   "property": "C10",
   "status": "proved",
   "theorems": [
    "CV.C10_ordering"
   ],
   "note": ""
  },
  {
   "property": "C11",
   "status": "partial",
   "theorems": [
    "CV.C11_exec_recursive",
    "CV.C11_exec_recursive_sound",
    "CV.C11_direct_meaning",
    "CV.C11_direct_counterexample"
   ],
   "note": "Proved for the recursive option; the direct axiom, which is the default, is false (C11_direct_meaning, C11_direct_counterexample)."
  },
  {
   "property": "C12",
   "status": "partial",
   "theorems": [
    "CV.C12_determined",
    "CV.C12_replay_partial",
    "CV.C12_numbering",
    "CV.C12_undefined_counterexample",
    "CV.C12_clash_counterexample"
   ],
   "note": "The axioms determine the contents at every happening time point (C12_determined) and hold for the replay at happening time points (C12_replay_partial); they are also asserted at the undefined time point, where they can be unsatisfiable (C12_undefined_counterexample), and their time variable can be captured (C12_clash_counterexample)."
  },
  {
   "property": "C13",
   "status": "proved",
   "theorems": [
    "CV.C13_obligations",
    "CV.C13_no_lemmas",
    "CV.C13_sound",
    "CV.C13_run_to_dir",
    "CV.C13_run_to_file"
   ],
   "note": ""
  },
  {
   "property": "C14",
   "status": "proved",
   "theorems": [
    "CV.SmtM.C14_sat_iff_model",
    "CV.SmtM.C14_unsat_iff_entailed",
    "CV.SmtM.C14_capture",
    "CV.SmtM.C14_z3_standard"
   ],
   "note": "For every option setting and both realms, the text reads back as commands that are unsatisfiable iff the other assertions and the declarations entail the query (C14_unsat_iff_entailed); the name conditions are needed (C14_capture) and z3 gets non-standard commands exactly when rewrite or subterm declarations are present (C14_z3_standard)."
  },
  {
   "property": "C15",
   "status": "proved",
   "theorems": [
    "CV.SmtM.C15_text"
   ],
   "note": ""
  },
  {
   "property": "C16",
   "status": "proved",
   "theorems": [
    "CV.C16_round_proved",
    "CV.C16_round_disproved",
    "CV.C16_round_error",
    "CV.C16_round_undecided",
    "CV.C16_run_proved",
    "CV.C16_end_to_end"
   ],
   "note": "Rounds are modelled over the delivered message list; RoundConc (C50) proves that this list abstraction is exact for every interleaving of threads. End-to-end soundness combines it with C13."
  },
  {
   "property": "C17",
   "status": "proved",
   "theorems": [
    "CV.C17_failure",
    "CV.C17_bounded",
    "CV.C17_zero_retries",
    "CV.C17_discover",
    "CV.C17_progress",
    "CV.C17_no_discoverer_no_progress",
    "CV.C17_plain_runner_repeats"
   ],
   "note": "Also records that without a discoverer (only z3) every retry repeats the same problem (C17_plain_runner_repeats)."
  },
  {
   "property": "C18",
   "status": "proved",
   "theorems": [
    "CV.C18_vampire",
    "CV.C18_vampire_output_ignored",
    "CV.C18_z3",
    "CV.C18_z3_rest",
    "CV.C18_killed"
   ],
   "note": "Also records that vampire's exit code 0 counts as a proof whatever was printed (C18_vampire_output_ignored)."
  },
  {
   "property": "C19",
   "status": "partial",
   "theorems": [
    "CV.Prs.C19_closed_partial",
    "CV.Prs.C19_scoped_partial",
    "CV.Prs.C19_recursive_let",
    "CV.Prs.C19_let_leaks"
   ],
   "note": "closed and well-scoped results for text without recursive or leaked lets; both shown false otherwise (C19_recursive_let, C19_let_leaks)"
  },
  {
   "property": "C20",
   "status": "partial",
   "theorems": [
    "CV.Prs.C20_interpretation_partial",
    "CV.Prs.C20_meaning_partial",
    "CV.Prs.C20_meaning_scoped_partial",
    "CV.Prs.C20_shadow_counterexample"
   ],
   "note": "full meaning theorem for clean text (lexical scoping, connectives, macros, steps, find); with shadowing allowed names denote the outermost binder (C20_shadow_counterexample)"
  },
  {
   "property": "C21",
   "status": "partial",
   "theorems": [
    "CV.Prs.C21_excess_ignored",
    "CV.Prs.C21_enough_partial",
    "CV.Prs.C21_too_few_rejected",
    "CV.Prs.C21_macro_exact",
    "CV.Prs.C21_excess_counterexample"
   ],
   "note": "too few arguments rejected; excess arguments are silently ignored (C21_excess_ignored holds for every application, so the property is false)"
  },
  {
   "property": "C22",
   "status": "partial",
   "theorems": [
    "CV.Prs.C22_and_partial",
    "CV.Prs.C22_or_partial",
    "CV.Prs.C22_hardEq_partial",
    "CV.Prs.C22_operands_dropped",
    "CV.Prs.C22_sym_iff_diverges"
   ],
   "note": "and/or/=== chains keep every operand; =, !=, <=> and ==> chains lose the operands from the third on (C22_operands_dropped), symbolic <=> diverges (C22_sym_iff_diverges)"
  },
  {
   "property": "C23",
   "status": "partial",
   "theorems": [
    "CV.Prs.C23_macro_partial",
    "CV.Prs.C23_capture_counterexample"
   ],
   "note": "hygienic for macros without remaining quantifiers; capture otherwise (C23_capture_counterexample)"
  },
  {
   "property": "C24",
   "status": "proved",
   "theorems": [
    "CV.Prs.C24_problem",
    "CV.Prs.C24_accepted_iff"
   ],
   "note": "acceptance characterised exactly (FileOk), and everything retained in order up to the problem; a second query silently stops the reading but is still an error"
  },
  {
   "property": "C25",
   "status": "partial",
   "theorems": [
    "CV.Dep.C25_reported_partial",
    "CV.Dep.C25_key_partial",
    "CV.Dep.C25_accepted_partial",
    "CV.Dep.C25_search_complete_partial"
   ],
   "note": "Completeness of the key search of uf-cma, for protocols and roots without first-order quantifiers, when the variables the search introduces do not clash and unification misses nothing. The converse is C25_reported_partial: what is reported is reached otherwise than as a key, when keys are written as casts of names."
  },
  {
   "property": "C26",
   "status": "partial",
   "theorems": [
    "CV.Dep.SEx.C26_clash_counterexample",
    "CV.Dep.SEx.C26_cell_counterexample",
    "CV.Dep.SEx.C26_exec_counterexample",
    "CV.Dep.SEx.C26_hmac_counterexample",
    "CV.Dep.C26_authenticated_partial",
    "CV.Dep.C26_authenticated_hmac_partial",
    "CV.Dep.C26_search_complete_partial"
   ],
   "note": "Completeness of the main search of uf-cma with the dependency graph of the code (with and without hmac); exec not followed, no first-order quantifiers, no variable clash; counterexamples for each."
  },
  {
   "property": "C27",
   "status": "partial",
   "theorems": [
    "CV.Cry.CEx.C27_general_counterexample",
    "CV.Cry.CEx.C27_signature_counterexample",
    "CV.Cry.C27_general_says"
   ],
   "note": "False of the code: C27_general_says states what the axiom over all messages says, C27_general_counterexample and C27_signature_counterexample exhibit a structure in which MACs (signatures) verify and the intended statement is true but the generated axiom is false, since the message and the signature are exchanged."
  },
  {
   "property": "C28",
   "status": "partial",
   "theorems": [
    "CV.Dep.C28_ancestors_partial",
    "CV.Dep.C28_cell_partial",
    "CV.Dep.C28_input_partial",
    "CV.Dep.C28_preprocessed_partial",
    "CV.Dep.Ex.C28_cell_counterexample",
    "CV.Dep.Ex.C28_input_counterexample",
    "CV.Dep.Ex.C28_quantifier_counterexample",
    "CV.Dep.Ex.C28_diverges"
   ],
   "note": "For graphs whose contents hide nothing (no quantifier symbols, no message macro calling itself) the reported cells are exactly those reachable; the input flag of a cell is always false, the cells of input are always empty, and quantifier contents and cell arguments are not scanned (counterexamples proved)."
  },
  {
   "property": "C29",
   "status": "partial",
   "theorems": [
    "CV.Dep.C29_loaded",
    "CV.Dep.C29_numbered_from_one_partial",
    "CV.Dep.C29_unchanged",
    "CV.Dep.C29_counterexample"
   ],
   "note": "Instantiation is exact when the parameters are numbered from one; loaded files number them from zero (C29_loaded, C29_counterexample), so the parameters are left or shifted."
  },
  {
   "property": "C30",
   "status": "partial",
   "theorems": [
    "CV.Dep.SEx.C30_step_macro_counterexample",
    "CV.Dep.SEx.C30_msg_diverges",
    "CV.Dep.SEx.C30_quantifier_counterexample",
    "CV.Dep.SEx.C30_exec_counterexample",
    "CV.Dep.C30_input",
    "CV.Dep.C30_cell",
    "CV.Dep.C30_step_macro_partial",
    "CV.Dep.C30_quantifier_partial",
    "CV.Dep.C30_exec"
   ],
   "note": "Inputs, cells, exec fully; messages/conditions of time points when parameters do not clash; quantifier symbols when argument variables are those of the surrounding formula."
  },
  {
   "property": "C31",
   "status": "partial",
   "theorems": [
    "CV.Dep.C31_into_exist_partial",
    "CV.Dep.C31_search_partial",
    "CV.Dep.ExEx.C31_capture_counterexample",
    "CV.Dep.ExEx.C31_empty_sort_counterexample"
   ],
   "note": "Exact equivalence when listed variables have distinct numbers and inhabited sorts and are not free in results that do not list them; counterexamples when either fails; holds for the results of a search under the hypotheses of C26."
  },
  {
   "property": "C32",
   "status": "partial",
   "theorems": [
    "CV.Ev.EvEx.C32_legacy_counterexample",
    "CV.Ev.C32_sound_partial",
    "CV.Ev.C32_sound_no_find_partial",
    "CV.Ev.C32_total"
   ],
   "note": "Sound for every emitted axiom without the legacy option (find symbols: after a suitable choice of the Skolem functions); counterexample for the legacy congruence axioms."
  },
  {
   "property": "C33",
   "status": "partial",
   "theorems": [
    "CV.Ev.EvEx.C33_variable_counterexample",
    "CV.Ev.EvEx.C33_quantifier_counterexample",
    "CV.Ev.C33_propagate_partial",
    "CV.Ev.C33_under_function",
    "CV.Ev.C33_quantifier_panic"
   ],
   "note": "Meaning preserved when evaluated variables have unevaluated sorts and no quantifier symbol is reached; counterexamples for variables and quantifier symbols; panic on quantifiers with wrong arity."
  },
  {
   "property": "C34",
   "status": "proved",
   "theorems": [
    "CV.Prs.C34_agree",
    "CV.Prs.C34_unify",
    "CV.Prs.C34_never_changes",
    "CV.Prs.C34_sig_sound",
    "CV.Prs.C34_sig_complete",
    "CV.Prs.C34_sig_declared"
   ],
   "note": "placeholders of the elaborator and Signature::unify on finite signatures"
  },
  {
   "property": "C35",
   "status": "partial",
   "theorems": [
    "CV.Sq.C35_reversed",
    "CV.Sq.C35_middle_partial",
    "CV.Sq.C35_counterexample"
   ],
   "note": "Components come out in reverse order (C35_reversed); only the middle component of an odd tuple is right (C35_middle_partial), witness C35_counterexample."
  },
  {
   "property": "C36",
   "status": "partial",
   "theorems": [
    "CV.Sq.C36_projection",
    "CV.Sq.C36_total",
    "CV.Sq.C36_no_panic",
    "CV.Sq.C36_tuple_counterexample",
    "CV.Sq.C36_unused_branch_counterexample"
   ],
   "note": "For every well-labelled term in which no symbol taking a single tuple is applied to a bi-system tuple, projecting commutes with converting (C36_projection) and conversion neither panics nor fails on supported terms (C36_total, C36_no_panic); both side conditions are needed (the two counterexamples)."
  },
  {
   "property": "C37",
   "status": "partial",
   "theorems": [
    "CV.Sq.C37_sanitize",
    "CV.Sq.C37_prefix",
    "CV.Sq.C37_no_builtin",
    "CV.Sq.C37_path",
    "CV.Sq.C37_path_sanitize",
    "CV.Sq.C37_counterexample"
   ],
   "note": "Injective on symbols of the same prefix class that are not built in (C37_sanitize, C37_path_sanitize); a function and a macro of the same path coincide and the built-in table is shared by all kinds (C37_counterexample)."
  },
  {
   "property": "C38",
   "status": "proved",
   "theorems": [
    "CV.Sq.C38_depends_iff",
    "CV.Sq.C38_strict_order",
    "CV.Sq.C38_mutex_iff",
    "CV.Sq.C38_mutex_symm",
    "CV.Sq.C38_disjoint",
    "CV.Sq.C38_depends_lemma",
    "CV.Sq.C38_mutex_lemma",
    "CV.Sq.C38_no_lemma",
    "CV.Sq.C38_all_pairs",
    "CV.Sq.C38_dummy_panics"
   ],
   "note": "Also covers the emitted orderings: orientation, scoping, renaming apart, all pairs; the placeholder variable can make the tool abort (C38_dummy_panics)."
  },
  {
   "property": "C39",
   "status": "partial",
   "theorems": [
    "CV.Sq.C39_accumulates",
    "CV.Sq.C39_first_partial",
    "CV.Sq.C39_counterexample"
   ],
   "note": "Only the first problem gets the promised location (C39_first_partial); the indices accumulate (C39_accumulates, C39_counterexample)."
  },
  {
   "property": "C40",
   "status": "proved",
   "theorems": [
    "CV.Utl.C40_arc",
    "CV.Utl.C40_each_once",
    "CV.Utl.C40_fused",
    "CV.Utl.C40_collect",
    "CV.Utl.C40_vecref",
    "CV.Utl.C40_vecrefclone",
    "CV.Utl.C40_extend"
   ],
   "note": "every interleaving of front/back reads, every representation"
  },
  {
   "property": "C41",
   "status": "partial",
   "theorems": [
    "CV.Utl.C41_get",
    "CV.Utl.C41_len_iff",
    "CV.Utl.C41_len_partial",
    "CV.Utl.C41_single_counterexample"
   ],
   "note": "get/index proved for every representation; len/is_empty proved for every representation except a single borrowed element, where they are wrong (C41_single_counterexample)"
  },
  {
   "property": "C42",
   "status": "partial",
   "theorems": [
    "CV.Cont.C42_distinct_partial",
    "CV.Cont.C42_wraps",
    "CV.Cont.C42_fresh",
    "CV.Cont.C42_available_inverted"
   ],
   "note": "Fresh names are distinct from each other and from names in use for the first 65536 requests; the counter then wraps (C42_wraps), and is_name_available answers the opposite of its name (C42_available_inverted)."
  },
  {
   "property": "C43",
   "status": "proved",
   "theorems": [
    "CV.Cont.C43_first_content",
    "CV.Cont.C43_once",
    "CV.Cont.C43_alloc",
    "CV.Cont.C43_cyclic",
    "CV.Cont.C43_multiple",
    "CV.Cont.C43_compare"
   ],
   "note": ""
  },
  {
   "property": "C44",
   "status": "partial",
   "theorems": [
    "CV.Cli.C44_global_partial",
    "CV.Cli.C44_plan",
    "CV.Cli.C44_default_differs",
    "CV.Cli.C44_disabled",
    "CV.Cli.C44_load_partial",
    "CV.Cli.C44_no_effect",
    "CV.Cli.C44_cvc5_partial",
    "CV.Cli.C44_output"
   ],
   "note": "Effects of all switches proved for all combinations; --disallow-shadowing is ignored unless writing files, --skolemnise has no effect, the two rewrite switches do the same, --cvc5 keeps rewrite rules, the default command differs from auto, pretty JSON is not pretty (C44_no_effect, C44_default_differs, C44_cvc5_partial, C44_output)."
  },
  {
   "property": "C45",
   "status": "partial",
   "theorems": [
    "CV.Prs.C45_recognised_partial",
    "CV.Prs.C45_unknown_accepted",
    "CV.Prs.C45_recursive_ignored"
   ],
   "note": "exact characterisation of what is accepted and which features are switched on; the claim itself is false: unknown words are accepted and ignored, and the word `recursive` has no effect (the code tests for a misspelling)"
  },
  {
   "property": "C46",
   "status": "partial",
   "theorems": [
    "CV.Cry.C46_ev_function",
    "CV.Cry.C46_ev_not_of_sort",
    "CV.Cry.C46_ev_special_partial",
    "CV.Cry.C46_ev_names",
    "CV.Cry.C46_nonce_evaluated_partial",
    "CV.Cry.TEx.C46_exec_counterexample",
    "CV.Cry.TEx.C46_capture_counterexample",
    "CV.Cry.TEx.C46_message_argument_counterexample",
    "CV.Cry.C46_function",
    "CV.Cry.C46_not_of_sort",
    "CV.Cry.C46_fresh",
    "CV.Cry.C46_special_partial",
    "CV.Cry.C46_names",
    "CV.Cry.C46_nonce_partial"
   ],
   "note": "The axioms for functions, for sorts that cannot hold a nonce, and the uniqueness axioms are proved for every structure; the unfolding axioms of quantifier symbols, steps, cells and inputs are proved when no variable of the protocol is captured and no argument is a message. What is left out is false: C46_exec_counterexample, C46_capture_counterexample, C46_message_argument_counterexample. The same is proved without assuming that symbols are free, hence for the evaluated realm, when the predicate is read as \"cannot be computed without\" (C46_nonce_evaluated_partial)."
  },
  {
   "property": "C47",
   "status": "proved",
   "theorems": [
    "CV.C47_new"
   ],
   "note": ""
  },
  {
   "property": "C48",
   "status": "partial",
   "theorems": [
    "CV.C48_quoted_iff_partial",
    "CV.C48_unquoted",
    "CV.C48_panics_iff",
    "CV.C48_counterexample"
   ],
   "note": "Faithful exactly on single-byte names (C48_quoted_iff_partial); non-ASCII names keep the closing quote and a lone quote panics in debug builds (C48_counterexample)."
  },
  {
   "property": "C49",
   "status": "proved",
   "theorems": [
    "CV.C49_msg_cond",
    "CV.C49_always_emitted"
   ],
   "note": "Both axioms emitted for every step, and pinned to hold in a structure exactly when message/condition agree with the step's own terms at every happening point."
  },
  {
   "property": "C50",
   "status": "proved",
   "theorems": [
    "CV.Conc.C50_terminates",
    "CV.Conc.C50_bound",
    "CV.Conc.C50_no_deadlock",
    "CV.Conc.C50_clean_exit",
    "CV.Conc.C50_no_lost_child",
    "CV.Conc.C50_verdict"
   ],
   "note": "Transition system of threads, channels and processes of one round; killing is assumed to succeed."
  },
  {
   "property": "C51",
   "status": "proved",
   "theorems": [
    "CV.C51_transpose",
    "CV.C51_bind",
    "CV.C51_widths",
    "CV.C51_one"
   ],
   "note": "For values that belong to a consistent family of systems; also pins down the widths."
  },
  {
   "property": "C52",
   "status": "proved",
   "theorems": [
    "CV.Prs.C52_no_panic",
    "CV.Prs.C52_needs_grammar"
   ],
   "note": "on texts of the grammar (infix operators with two operands or more)"
  },
  {
   "property": "C53",
   "status": "partial",
   "theorems": [
    "CV.Prs.C53_unique",
    "CV.Prs.C53_terminates_partial",
    "CV.Prs.C53_circular_macro"
   ],
   "note": "unique outcome; terminates when macros can be unfolded completely and no <=> occurs in messages or conditions; diverges on circular macros (C53_circular_macro) and on symbolic <=> (C22_sym_iff_diverges)"
  },
  {
   "property": "C54",
   "status": "partial",
   "theorems": [
    "CV.Prs.C54_steps_partial",
    "CV.Prs.C54_msg_cond_partial"
   ],
   "note": "the meaning part is for clean texts (see Clean); names, parameters, number and targets of assignments hold for all files"
  },
  {
   "property": "C55",
   "status": "partial",
   "theorems": [
    "CV.Prs.C55_orders_partial"
   ],
   "note": "for clean texts; order, quantifier, direction and default guard hold for all"
  },
  {
   "property": "C56",
   "status": "partial",
   "theorems": [
    "CV.Prs.C56_no_panic_partial",
    "CV.Prs.C56_bitstring_panics"
   ],
   "note": "a function returning bitstrings or a declared type panics (C56_bitstring_panics); all other files of the grammar never do"
  },
  {
   "property": "C57",
   "status": "proved",
   "theorems": [
    "CV.Prs.C57_names",
    "CV.Prs.C57_signatures",
    "CV.Prs.C57_order"
   ],
   "note": ""
  },
  {
   "property": "C58",
   "status": "partial",
   "theorems": [
    "CV.Prs.C58_arguments_partial",
    "CV.Prs.C58_arguments_unchecked"
   ],
   "note": "false when the numbers differ (C58_arguments_unchecked): extra arguments are dropped unread, missing ones are accepted"
  },
  {
   "property": "C59",
   "status": "partial",
   "theorems": [
    "CV.Cont.C59_names_partial",
    "CV.Cont.C59_evaluate_clash"
   ],
   "note": "Distinct symbols have distinct printed names except that evaluate_msg/evaluate_cond are not reserved (C59_evaluate_clash)."
  },
  {
   "property": "C60",
   "status": "partial",
   "theorems": [
    "CV.Ev.EvEx.C60_negation_counterexample",
    "CV.Ev.C60_base",
    "CV.Ev.C60_connective",
    "CV.Ev.C60_eq_ite",
    "CV.Ev.C60_not_quantifier_partial"
   ],
   "note": "Base functions, connectives, equality and conditional in full; negation and quantifiers in one direction, with a counterexample for the other."
  },
  {
   "property": "C61",
   "status": "partial",
   "theorems": [
    "CV.Cry.CEx.C61_message_variable_counterexample",
    "CV.Cry.C61_mac_partial",
    "CV.Cry.C61_hmac_partial",
    "CV.Cry.C61_mac_correct",
    "CV.Cry.C61_signature_partial"
   ],
   "note": "Proved for protocols and candidates on which the searches are complete (C25, C26) and whose variables range over the sorts unforgeability is stated for; C61_message_variable_counterexample shows that the code generates a false axiom for a candidate with a variable that stands for a message. The number of the fresh variable is computed without the Expander; C67 shows that it is the same."
  },
  {
   "property": "C62",
   "status": "partial",
   "theorems": [
    "CV.Cry.C62_mac_found",
    "CV.Cry.C62_mac_says_partial",
    "CV.Cry.C62_signature_found",
    "CV.Cry.C62_signature_says_partial",
    "CV.Cry.CEx.C62_hidden_counterexample"
   ],
   "note": "C62_mac_found and C62_signature_found hold for every verification written in a top-level term of the problem; those under a quantifier of the term algebra, whose contents are not looked into, are forgotten (C62_hidden_counterexample). What the axioms say is proved for candidates as in C61."
  },
  {
   "property": "C63",
   "status": "partial",
   "theorems": [
    "CV.Cry.C63_ctxt_partial",
    "CV.Cry.TEx.C63_ignored_counterexample",
    "CV.Cry.C63_define_partial",
    "CV.Cry.C63_mac_partial",
    "CV.Cry.C63_signature_partial"
   ],
   "note": "As C46 for the predicates of the MAC, signature and ciphertext assumptions, except the unfolding axioms emitted for the ignored functions themselves, which are false: C63_ignored_counterexample."
  },
  {
   "property": "C64",
   "status": "partial",
   "theorems": [
    "CV.Cry.IEx.C64_hidden_counterexample",
    "CV.Cry.IEx.C64_reuse_counterexample",
    "CV.Cry.IEx.C64_leak_counterexample",
    "CV.Cry.IEx.C64_open_counterexample",
    "CV.Cry.C64_general_ill_sorted",
    "CV.Cry.C64_instance_partial",
    "CV.Cry.C64_found",
    "CV.Cry.C64_says_partial",
    "CV.Cry.C64_correct",
    "CV.Cry.C64_encryptions_partial",
    "CV.Cry.C64_pairs_partial",
    "CV.Cry.C64_general_says"
   ],
   "note": "C64_found (no decryption is forgotten) holds for those written in a top-level term; those under a quantifier of the term algebra are forgotten (C64_hidden_counterexample). C64_correct holds without restriction. The instances are proved true for candidates as in C61, provided their side condition implies that randomness is well used; the code does not ensure that (C64_reuse_counterexample, C64_leak_counterexample), may emit an open formula (C64_open_counterexample), and its axiom over all messages is never well sorted (C64_general_ill_sorted). C64_encryptions_partial: a ciphertext whose side condition was computed uses a name as the randomness of every encryption found."
  },
  {
   "property": "C65",
   "status": "partial",
   "theorems": [
    "CV.Cry.C65_function",
    "CV.Cry.C65_not_of_sort",
    "CV.Cry.C65_define",
    "CV.Cry.C65_nonce",
    "CV.Cry.C65_special_partial",
    "CV.Cry.C65_covered",
    "CV.Cry.C65_predicates",
    "CV.Cry.C65_occurs_partial"
   ],
   "note": "C65_function, C65_not_of_sort, C65_define, C65_nonce, C65_covered and C65_predicates hold for every structure in which the axioms are true; the unfolding axioms (C65_special_partial, C65_occurs_partial) when the variables the search introduces do not clash."
  },
  {
   "property": "C66",
   "status": "partial",
   "theorems": [
    "CV.Dep.C66_reported_partial"
   ],
   "note": "For protocols and roots without first-order quantifiers, when the variables the search introduces do not clash; a variable that stands for a term of the algebra is reported through the subterm predicate."
  },
  {
   "property": "C67",
   "status": "partial",
   "theorems": [
    "CV.C67_enumerates_partial",
    "CV.C67_contents_counterexample",
    "CV.C67_diverges",
    "CV.Cry.C67_mac_fresh_partial",
    "CV.Cry.C67_signature_fresh_partial",
    "CV.Cry.C67_cipher_fresh_partial",
    "CV.Cry.CEx.C67_clash_counterexample"
   ],
   "note": "Proved when the parameters that quantifier symbols replace are numbered as variables of the problem, or occur in no candidate. Otherwise the enumeration may not end (C67_diverges) or miss a variable, so that the number is taken (C67_clash_counterexample); contents are not enumerated (C67_contents_counterexample)."
  },
  {
   "property": "C68",
   "status": "partial",
   "theorems": [
    "CV.Disc.Ex.C68_sorts_counterexample",
    "CV.Disc.Ex.C68_arity_counterexample",
    "CV.Disc.Ex.C68_equality_counterexample",
    "CV.Disc.Ex.C68_evaluated_lost",
    "CV.Disc.Ex.C68_false_axiom_counterexample",
    "CV.Disc.C68_generalises_debug",
    "CV.Disc.C68_generalises_partial",
    "CV.Disc.C68_sorted_partial",
    "CV.Disc.C68_accepts",
    "CV.Disc.C68_unknown_lost",
    "CV.Disc.C68_ite_lost",
    "CV.Disc.C68_search"
   ],
   "note": "Generalisation is proved for literals without ite whose unknown terms are each expected at one sort (C68_generalises_partial), and for all literals when the tool runs with debug assertions and does not stop (C68_generalises_debug); it fails otherwise (C68_sorts_counterexample). Sorts agree, but arguments may be missing and sides of equalities may differ. Instances may give false axioms (C68_false_axiom_counterexample)."
  },
  {
   "property": "C69",
   "status": "partial",
   "theorems": [
    "CV.Ind.C69_bubble",
    "CV.Ind.C69_general_partial",
    "CV.Ind.C69_unsound",
    "CV.Ind.C69_equalities",
    "CV.Ind.C69_collapse"
   ],
   "note": "All rules are valid in every model of the symbols except simpl-tuple-2 and ite-eq-1, which are invalid in each of them (C69_unsound) and make all terms equal (C69_collapse)."
  },
  {
   "property": "C70",
   "status": "partial",
   "theorems": [
    "CV.Ind.Ex.C70_copy_counterexample",
    "CV.Ind.Ex.C70_kp_randomness_counterexample",
    "CV.Ind.Ex.C70_input_counterexample",
    "CV.Ind.Ex.C70_cycle_counterexample",
    "CV.Ind.C70_cca_partial",
    "CV.Ind.C70_kp_partial",
    "CV.Ind.C70_cca_single_partial",
    "CV.Ind.C70_kp_single_partial",
    "CV.Ind.C70_ends",
    "CV.Ind.C70_cca_complete_partial",
    "CV.Ind.C70_kp_complete_partial"
   ],
   "note": "Side conditions hold except inside copies of the replaced encryption and under input (refuted by C70_copy_counterexample, C70_input_counterexample), and when the new key is not the randomness (C70_kp_randomness_counterexample); they hold entirely when the encryption occurs along one path and input is not used. The searches always end; they find everything on acyclic e-graphs but not with cycles (C70_cycle_counterexample)."
  },
  {
   "property": "C71",
   "status": "partial",
   "theorems": [
    "CV.Gen.C71_declared_once",
    "CV.Gen.C71_datatypes",
    "CV.Gen.C71_sorts_declared",
    "CV.Gen.C71_name_sort_counterexample",
    "CV.Gen.C71_evaluated_counterexample",
    "CV.Gen.C71_sorts_once",
    "CV.Gen.C71_time",
    "CV.Gen.C71_enough_partial",
    "CV.Gen.C71_sound_partial",
    "CV.Gen.C71_proved_partial",
    "CV.Gen.C71_cells_counterexample"
   ],
   "note": "Proved: every symbol of the problem is declared exactly once, no sort twice, sorts before use when there are names; all assertions of the file are true in every execution in which the assumptions hold, and unsatisfiability of the text implies the query there (evaluated realm for the cryptographic assumptions; gt and the direct exec definition only with the meaning their axioms give). Conversely every structure with finitely many time points in which the assertions are true is an execution with the orders, assertions, macros, exec and cells of the problem (C71_enough_partial, without the cryptographic assumptions). Refuted: with memory cells the symbolic file has no model (C71_cells_counterexample); evaluated symbols and the sort of names may be used undeclared (C71_evaluated_counterexample, C71_name_sort_counterexample)."
  },
  {
   "property": "C72",
   "status": "partial",
   "theorems": [
    "CV.C72_lost_assignment_counterexample",
    "CV.C72_swallowed_counterexample",
    "CV.C72_option_counterexample",
    "CV.C72_msg_counterexample",
    "CV.C72_neq_counterexample",
    "CV.C72_keyword_counterexample",
    "CV.C72_unambiguous",
    "CV.C72_layout",
    "CV.C72_file_read"
   ],
   "note": "Proved: every list of statements written as in GrammarSpec (any blanks, comments, optional `;`, all spellings of the operators) is read as exactly these statements, in debug and release builds; so writing is unambiguous and the layout does not matter. The specification leaves out the texts that are misread: assignments with a mistake are silently dropped (C72_lost_assignment_counterexample), a statement after `assert-crypto` is swallowed (C72_swallowed_counterexample), options taken for arguments, `msg!` of something else than a step, `!=` after a name, names that start with a keyword."
  },
  {
   "property": "C73",
   "status": "proved",
   "theorems": [
    "CV.C73_reading_ends"
   ],
   "note": "For every text, every build and every choice of the Unicode letters; the time is not bounded (nested brackets are read twice at each level, which can be exponential)."
  },
  {
   "property": "C74",
   "status": "partial",
   "theorems": [
    "CV.C74_options_counterexample",
    "CV.C74_msg_counterexample",
    "CV.C74_find_counterexample",
    "CV.C74_crashes",
    "CV.C74_accepts",
    "CV.C74_no_crash"
   ],
   "note": "Proved for every text: a release build crashes only on the three mistakes listed (C74_crashes), never without `msg!`, `cond!` and `[` (C74_no_crash), and a file that the grammar accepts and that has none of the listed pairs is read, in debug and release builds (C74_accepts). Refuted: the three mistakes do crash (C74_options_counterexample, C74_msg_counterexample, C74_find_counterexample)."
  },
  {
   "property": "C75",
   "status": "partial",
   "theorems": [
    "CV.Txt2.C75_read_back",
    "CV.Txt2.C75_builds_agree",
    "CV.Txt2.C75_read_back_good",
    "CV.Txt2.C75_dropped_counterexample"
   ],
   "note": "Proved for every text that a debug build reads, if `msg!` and `cond!` have at most one argument; a release build then reads the same. Missing: what a release build reads and a debug build does not (see C72); where two names could meet without a blank in a term, the specification allows any split. Refuted without the condition: further arguments of `msg!` are dropped (C75_dropped_counterexample)."
  },
  {
   "property": "C76",
   "status": "partial",
   "theorems": [
    "CV.C76_print_read_partial",
    "CV.C76_guard_counterexample",
    "CV.C76_options_counterexample",
    "CV.C76_arguments_counterexample",
    "CV.C76_step_counterexample",
    "CV.C76_infix_counterexample",
    "CV.C76_sanitized",
    "CV.C76_sanitized_counterexample",
    "CV.C76_squirrel"
   ],
   "note": "Proved for statements with readable names, at most one option (none after a name), assignments in steps, no guards, and infix operators other than `===` with at least two arguments; read back up to `f()` for `f`. Also for the names and terms that come from Squirrel. Refuted in general: guards of orders are not printed, several options are separated by commas that the grammar lacks, options after a name become arguments, steps without assignments crash or change, `===` and one-argument operators cannot be read, and encoded names can contain `#` and `$`."
  },
  {
   "property": "C77",
   "status": "proved",
   "theorems": [
    "CV.Sq.C77_projection",
    "CV.Sq.C77_total",
    "CV.Sq.C77_no_panic",
    "CV.Sq.C77_update_counterexample",
    "CV.Sq.C77_panic_counterexample"
   ],
   "note": "For files of Squirrel's form: the indices of an action are those of its control flow, conditions have no variables, the cell an update writes uses the same variables in all systems, encryptions and signatures come with their associated functions, and the first global macro of an action has no more inputs than the action has steps plus one. Counterexamples show what happens without these."
  },
  {
   "property": "C78",
   "status": "proved",
   "theorems": [
    "CV.Txt2.C78_text",
    "CV.Txt2.C78_crashes",
    "CV.Txt2.C78_no_crash",
    "CV.Txt2.C78_problem",
    "CV.Txt2.C78_crash_counterexample"
   ],
   "note": "The panics that remain are characterised: the three mistakes of C74 and functions into a type of the file or Bitstring (counterexamples). Debug builds may panic on more texts while reading (C74)."
  },
  {
   "property": "C79",
   "status": "partial",
   "theorems": [
    "CV.Sq.C79_interpretation",
    "CV.Sq.C79_meaning",
    "CV.Sq.C79_conversion",
    "CV.Sq.C79_subtype_counterexample"
   ],
   "note": "Proved for interpretations in which the types converted to Message range over the same values and projections follow C35's order; for subtypes the statement is false (C79_subtype_counterexample)."
  },
  {
   "property": "C80",
   "status": "partial",
   "theorems": [
    "CV.Sq.C80_contents",
    "CV.Sq.C80_sound_partial",
    "CV.Sq.C80_valid_partial",
    "CV.Sq.C80_own_input_counterexample",
    "CV.Sq.C80_trace_sound_partial",
    "CV.Sq.C80_trace_valid_partial"
   ],
   "note": "C80_contents covers every statement of the problem; the statement about models (C80_sound_partial, C80_valid_partial, with traces and orders C80_trace_sound_partial, C80_trace_valid_partial) leaves out the cryptographic assumptions, requires operators without definitions, and reads the inputs of macros as the code does, which is not the input of the action (C80_own_input_counterexample)."
  },
  {
   "property": "C81",
   "status": "partial",
   "theorems": [
    "CV.Sq.C81_reads_partial",
    "CV.Sq.C81_unique",
    "CV.Sq.C81_roundtrip_partial",
    "CV.Sq.C81_depth",
    "CV.Sq.C81_depth_counterexample",
    "CV.Sq.C81_tag_counterexample",
    "CV.Sq.C81_last",
    "CV.Sq.C81_tables",
    "CV.Sq.C81_valid_partial"
   ],
   "note": "What is read is what was written and the format is unambiguous, without restriction; what is written is read only if it is nested less than 128 deep, which is a limit of serde_json that the code does not lift (C81_depth_counterexample). Tags of variables are part of Squirrel's format but not of what is read (C81_tag_counterexample)."
  },
  {
   "property": "C82",
   "status": "proved",
   "theorems": [
    "CV.Prs.C82_term",
    "CV.Prs.C82_outcome",
    "CV.Prs.C82_accepted",
    "CV.Prs.C82_text",
    "CV.Prs.C82_index_counterexample",
    "CV.Prs.C82_mixed_counterexample"
   ],
   "note": "For every well-sorted file, text and term. The rules are those the code implements: protocol terms are compared as messages only, so that an equality of indices is not accepted in a step (C82_index_counterexample), and more than the rules is accepted (C82_mixed_counterexample: an equality between different sorts in a formula)."
  },
  {
   "property": "C83",
   "status": "partial",
   "theorems": [
    "CV.Prs.C83_term_partial",
    "CV.Prs.C83_file_partial",
    "CV.Prs.C83_accepted_partial",
    "CV.Prs.C83_equality_counterexample",
    "CV.Prs.C83_let_counterexample"
   ],
   "note": "For every clean and well-sorted file and term. Without these hypotheses it is false of the code: C83_equality_counterexample (an equality between a step and a Boolean is accepted), C83_let_counterexample (a `let` of a message in a formula is evaluated twice). Clean is the hypothesis of C20 (no capture by macros, no message argument where a formula expects its value)."
  },
  {
   "property": "C84",
   "status": "partial",
   "theorems": [
    "CV.Dcl.C84_same_protocol",
    "CV.Bld.C84_execution_partial",
    "CV.Bld.C84_assumptions_partial",
    "CV.Bld.C84_sound_partial",
    "CV.Bld.C84_proved_partial"
   ],
   "note": "From a well-sorted and clean file to the text given to the prover. Missing: what is missing in C71 (`gt`, the direct definition of `exec`, cryptographic assumptions in the evaluated realm only); the cryptographic assumptions are stated on the problem and not on the text; hypotheses on the shape of the texts: clean (C20), created functions over variables of distinct numbers with evaluable contents (`TblPlain`), user formulas through which evaluation can be pushed (`UserForms`, a computable check), parameters of steps used if there are cells (`ParamsUsed`, see C12)."
  },
  {
   "property": "C85",
   "status": "partial",
   "theorems": [
    "CV.Loc.C85_tree_iff",
    "CV.Loc.C85_tree_otherwise",
    "CV.Loc.C85_conversion",
    "CV.Loc.C85_position",
    "CV.Loc.C85_syntax",
    "CV.Loc.C85_nowhere",
    "CV.Loc.C85_nameless",
    "CV.Loc.C85_tree_counterexample",
    "CV.Loc.C85_conversion_counterexample"
   ],
   "note": "The claim is false of the code (counterexamples): only parts that start at offset 0 are located. Proved: exactly when the code is right, and what it shows otherwise. Not modelled: the drawing of the source line."
  },
  {
   "property": "C86",
   "status": "partial",
   "theorems": [
    "CV.Key.C86_key",
    "CV.Key.C86_contents",
    "CV.Key.C86_refused",
    "CV.Key.C86_map",
    "CV.Key.C86_lookup",
    "CV.Key.C86_lost_counterexample",
    "CV.Key.C86_owned_counterexample",
    "CV.Key.C86_owned_partial"
   ],
   "note": "Proved of `StrRef`, for maps of any contents and any hash function. False of `MOw` (counterexamples); there only between values that are all owned or all borrowed."
  },
  {
   "property": "C87",
   "status": "partial",
   "theorems": [
    "CV.Key.C87_exact",
    "CV.Key.C87_results_partial",
    "CV.Key.C87_results_iff",
    "CV.Key.C87_too_many_counterexample",
    "CV.Key.C87_forgotten_counterexample",
    "CV.Key.C87_options"
   ],
   "note": "Proved of plain iterators. On results and options the claim is false (counterexamples); proved exactly when values and errors are returned there."
  },
  {
   "property": "C88",
   "status": "proved",
   "theorems": [
    "CV.Sq.C88_orders",
    "CV.Sq.C88_exact",
    "CV.Sq.C88_choice_counterexample",
    "CV.Sq.C88_names_counterexample"
   ],
   "note": "C88_exact: conversely, a list of points of which the orders are true is a trace as far as orders can say, when common indices are named alike and indices are distinct. Without this, and for the choice of values in one branch, the converse is false (C88_names_counterexample, C88_choice_counterexample); the claim itself is not affected."
  },
  {
   "property": "C89",
   "status": "partial",
   "theorems": [
    "CV.Scp.C89_declared_partial",
    "CV.Scp.C89_cells",
    "CV.Scp.C89_counterexample",
    "CV.Scp.C89_squirrel_operators_counterexample"
   ],
   "note": "C89_declared_partial assumes that no function is given more arguments than it has parameters, does not restrict the variables of let to its scope, and is about the texts that are read: not the bodies of macros that are not used. Without these restrictions the claim is false (C89_counterexample). C89_squirrel_operators_counterexample: problems made of Squirrel files that use operators with a definition are refused, since their uses mention a function that is declared as a macro."
  },
  {
   "property": "C90",
   "status": "partial",
   "theorems": [
    "CV.Dcl.C90_declared",
    "CV.Dcl.C90_sorts_partial",
    "CV.Dcl.C90_signatures",
    "CV.Dcl.C90_name_sort_counterexample",
    "CV.Dcl.C90_step_functions_counterexample"
   ],
   "note": "C90_declared and C90_signatures are proved of every accepted file that is written. C90_sorts_partial assumes that the file declares some name: without names the sort of names is used but not declared (C90_name_sort_counterexample). A file with a function that gives steps is accepted but makes the generators panic (C90_step_functions_counterexample). Which constructors a datatype has is C71_datatypes; the names they are printed with are C59."
  },
  {
   "property": "C91",
   "status": "partial",
   "theorems": [
    "CV.Fls.C91_file",
    "CV.Fls.C91_dir",
    "CV.Fls.C91_squirrel_lemmas_partial",
    "CV.Fls.C91_side_by_side_counterexample",
    "CV.Fls.C91_squirrel_one_partial",
    "CV.Fls.C91_squirrel_file_counterexample",
    "CV.Fls.C91_squirrel_stdout_counterexample",
    "CV.Fls.C91_overwrite",
    "CV.Fls.C91_keeps",
    "CV.Fls.C91_squirrel_keeps"
   ],
   "note": "C91_file, C91_overwrite and C91_dir are proved of files of the tool's own format. For Squirrel files the claim (the i-th problem is written to loc/i) is false: C91_side_by_side_counterexample, C91_squirrel_file_counterexample and C91_squirrel_stdout_counterexample, proved for all problems and file systems. What holds is C91_squirrel_lemmas_partial and C91_squirrel_one_partial. C91_keeps and C91_squirrel_keeps: no directory is replaced and nothing outside the location changes, in any run. Permissions, links and full disks are not modelled."
  },
  {
   "property": "C92",
   "status": "partial",
   "theorems": [
    "CV.Bld.C92_command_line_partial",
    "CV.Bld.Clash.C92_distinct_counterexample",
    "CV.Bld.Clash.C92_variable_counterexample",
    "CV.Bld.Clash.C92_sort_counterexample",
    "CV.Bld.Clash.C92_symbol_counterexample",
    "CV.Bld.Clash.C92_undeclared_counterexample",
    "CV.Bld.C92_proved_partial"
   ],
   "note": "C92_proved_partial is C84_proved_partial for the text with the names of the code, for files whose names are as in NamesClear; that generated numbers differ is a hypothesis (that the symbols of the text come from the file and that its declarations are well formed is C94; that its formulas are closed with the right numbers of arguments is a hypothesis). Without NamesClear the claim is false: C92_distinct_counterexample, C92_variable_counterexample (the solver's answer is wrong), C92_sort_counterexample, C92_symbol_counterexample, C92_undeclared_counterexample (the text is not well formed). C92_command_line_partial: the same for the options of every command line but --symbolic with --legacy-evaluate."
  },
  {
   "property": "C93",
   "status": "partial",
   "theorems": [
    "CV.Slv.C93_vampire_args",
    "CV.Slv.C93_args_injective",
    "CV.Slv.C93_called",
    "CV.Slv.C93_running",
    "CV.Slv.C93_untouched",
    "CV.Slv.C93_clean",
    "CV.Slv.C93_kept_partial",
    "CV.Slv.C93_stays",
    "CV.Slv.C93_relative_counterexample",
    "CV.Slv.C93_elsewhere_counterexample",
    "CV.Slv.C93_starts",
    "CV.Slv.C93_starts_saved",
    "CV.Slv.C93_solvers",
    "CV.Slv.C93_command"
   ],
   "note": "Proved for all interleavings of the threads of a round: C93_called, C93_running, C93_untouched, C93_clean, C93_stays, C93_starts, C93_starts_saved, C93_solvers, C93_command, C93_vampire_args, C93_args_injective. C93_kept_partial needs an absolute directory: with a relative one the claim is false (C93_relative_counterexample, C93_elsewhere_counterexample). Permissions, full disks, links and other programs changing the files are not modelled."
  },
  {
   "property": "C94",
   "status": "partial",
   "theorems": [
    "CV.Bld.C94_command_line_partial",
    "CV.Bld.C94_switches_counterexample",
    "CV.Bld.C94_declarations",
    "CV.Bld.C94_predicates",
    "CV.Bld.C94_destructors",
    "CV.Bld.C94_skolems",
    "CV.Bld.C94_symbols_partial",
    "CV.Bld.C94_used_partial",
    "CV.Bld.C94_used_symbolic_partial",
    "CV.Bld.C94_used_declared_partial",
    "CV.Bld.C94_subterm_counterexample"
   ],
   "note": "C94_symbols_partial: all symbols of the written file, for accepted files whose texts are well sorted and clean (FileWs, FileClean). C94_predicates, C94_destructors, C94_skolems: the declared signatures; C94_declarations: all declarations are well formed, for every accepted file. C94_used_declared_partial: every symbol of a formula is declared or known to the solver, in the symbolic realm with bitstring functions and subterm predicates (otherwise false: C71_evaluated_counterexample, C94_subterm_counterexample; the latter needs an option that the command line never sets, C44_global_partial). C94_used_partial: for all options, what is used and not declared can only be a symbol made for evaluation or for an assumption. C94_used_symbolic_partial: without bitstring functions only evaluated functions and the equality of bitstrings can be missing. C94_command_line_partial: the same for the options of every command line (used symbols: with --symbolic; false without switches, C94_switches_counterexample). Missing: symbols for files that are accepted but not well sorted or clean, and that every application in the file is well sorted for these signatures."
  }
 ]
}