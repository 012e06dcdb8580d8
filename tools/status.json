{
 "C01": {
  "status": "partial",
  "note": "Substitution has the expected meaning for all formulas whose bound variables do not occur in the substituted terms; the code is not capture avoiding (C01_capture_counterexample)."
 },
 "C02": {
  "status": "proved",
  "note": ""
 },
 "C03": {
  "status": "proved",
  "note": ""
 },
 "C04": {
  "status": "proved",
  "note": ""
 },
 "C05": {
  "status": "partial",
  "note": "Fresh numbers are fresh; translation keeps the meaning on quantifier-free formulas and fails under quantifiers (C05_translate_quantified_counterexample)."
 },
 "C06": {
  "status": "proved",
  "note": ""
 },
 "C07": {
  "status": "partial",
  "note": "Every equality set returned is sound and most general; termination and completeness fail (C07_diverges, C07_incomplete), soundness as a substitution proved for linear patterns (C07_linear_partial), false when variables are shared (C07_shared_variable_counterexample)."
 },
 "C08": {
  "status": "partial",
  "note": "All order axioms but the gt axiom hold in every execution; the gt axiom is false in every execution (C08_gt_axiom_false)."
 },
 "C09": {
  "status": "proved",
  "note": ""
 },
 "C10": {
  "status": "proved",
  "note": ""
 },
 "C11": {
  "status": "partial",
  "note": "Proved for the recursive option; the direct axiom, which is the default, is false (C11_direct_meaning, C11_direct_counterexample)."
 },
 "C12": {
  "status": "partial",
  "note": "The axioms determine the contents at every happening time point (C12_determined) and hold for the replay at happening time points (C12_replay_partial); they are also asserted at the undefined time point, where they can be unsatisfiable (C12_undefined_counterexample), and their time variable can be captured (C12_clash_counterexample)."
 },
 "C13": {
  "status": "proved",
  "note": ""
 },
 "C14": {
  "status": "proved",
  "note": "For every option setting and both realms, the text reads back as commands that are unsatisfiable iff the other assertions and the declarations entail the query (C14_unsat_iff_entailed); the name conditions are needed (C14_capture) and z3 gets non-standard commands exactly when rewrite or subterm declarations are present (C14_z3_standard)."
 },
 "C15": {
  "status": "proved",
  "note": ""
 },
 "C16": {
  "status": "proved",
  "note": "Rounds are modelled over the delivered message list; RoundConc (C50) proves that this list abstraction is exact for every interleaving of threads. End-to-end soundness combines it with C13."
 },
 "C17": {
  "status": "proved",
  "note": "Also records that without a discoverer (only z3) every retry repeats the same problem (C17_plain_runner_repeats)."
 },
 "C18": {
  "status": "proved",
  "note": "Also records that vampire's exit code 0 counts as a proof whatever was printed (C18_vampire_output_ignored)."
 },
 "C47": {
  "status": "proved",
  "note": ""
 },
 "C48": {
  "status": "partial",
  "note": "Faithful exactly on single-byte names (C48_quoted_iff_partial); non-ASCII names keep the closing quote and a lone quote panics in debug builds (C48_counterexample)."
 },
 "C49": {
  "status": "proved",
  "note": "Both axioms emitted for every step, and pinned to hold in a structure exactly when message/condition agree with the step's own terms at every happening point."
 },
 "C50": {
  "status": "proved",
  "note": "Transition system of threads, channels and processes of one round; killing is assumed to succeed."
 },
 "C40": {
  "status": "proved",
  "note": "every interleaving of front/back reads, every representation"
 },
 "C41": {
  "status": "partial",
  "note": "get/index proved for every representation; len/is_empty proved for every representation except a single borrowed element, where they are wrong (C41_single_counterexample)"
 },
 "C37": {
  "status": "partial",
  "note": "Injective on symbols of the same prefix class that are not built in (C37_sanitize, C37_path_sanitize); a function and a macro of the same path coincide and the built-in table is shared by all kinds (C37_counterexample)."
 },
 "C35": {
  "status": "partial",
  "note": "Components come out in reverse order (C35_reversed); only the middle component of an odd tuple is right (C35_middle_partial), witness C35_counterexample."
 },
 "C36": {
  "status": "partial",
  "note": "For every well-labelled term in which no symbol taking a single tuple is applied to a bi-system tuple, projecting commutes with converting (C36_projection) and conversion neither panics nor fails on supported terms (C36_total, C36_no_panic); both side conditions are needed (the two counterexamples)."
 },
 "C38": {
  "status": "proved",
  "note": "Also covers the emitted orderings: orientation, scoping, renaming apart, all pairs; the placeholder variable can make the tool abort (C38_dummy_panics)."
 },
 "C39": {
  "status": "partial",
  "note": "Only the first problem gets the promised location (C39_first_partial); the indices accumulate (C39_accumulates, C39_counterexample)."
 },
 "C51": {
  "status": "proved",
  "note": "For values that belong to a consistent family of systems; also pins down the widths."
 },
 "C19": {
  "status": "partial",
  "note": "closed and well-scoped results for text without recursive or leaked lets; both shown false otherwise (C19_recursive_let, C19_let_leaks)"
 },
 "C20": {
  "status": "partial",
  "note": "full meaning theorem for clean text (lexical scoping, connectives, macros, steps, find); with shadowing allowed names denote the outermost binder (C20_shadow_counterexample)"
 },
 "C21": {
  "status": "partial",
  "note": "too few arguments rejected; excess arguments are silently ignored (C21_excess_ignored holds for every application, so the property is false)"
 },
 "C22": {
  "status": "partial",
  "note": "and/or/=== chains keep every operand; =, !=, <=> and ==> chains lose the operands from the third on (C22_operands_dropped), symbolic <=> diverges (C22_sym_iff_diverges)"
 },
 "C23": {
  "status": "partial",
  "note": "hygienic for macros without remaining quantifiers; capture otherwise (C23_capture_counterexample)"
 },
 "C34": {
  "status": "proved",
  "note": "placeholders of the elaborator and Signature::unify on finite signatures"
 },
 "C52": {
  "status": "proved",
  "note": "on texts of the grammar (infix operators with two operands or more)"
 },
 "C53": {
  "status": "partial",
  "note": "unique outcome; terminates when macros can be unfolded completely and no <=> occurs in messages or conditions; diverges on circular macros (C53_circular_macro) and on symbolic <=> (C22_sym_iff_diverges)"
 },
 "C24": {
  "status": "proved",
  "note": "acceptance characterised exactly (FileOk), and everything retained in order up to the problem; a second query silently stops the reading but is still an error"
 },
 "C45": {
  "status": "partial",
  "note": "exact characterisation of what is accepted and which features are switched on; the claim itself is false: unknown words are accepted and ignored, and the word `recursive` has no effect (the code tests for a misspelling)"
 },
 "C54": {
  "status": "partial",
  "note": "the meaning part is for clean texts (see Clean); names, parameters, number and targets of assignments hold for all files"
 },
 "C55": {
  "status": "partial",
  "note": "for clean texts; order, quantifier, direction and default guard hold for all"
 },
 "C56": {
  "status": "partial",
  "note": "a function returning bitstrings or a declared type panics (C56_bitstring_panics); all other files of the grammar never do"
 },
 "C57": {
  "status": "proved",
  "note": ""
 },
 "C58": {
  "status": "partial",
  "note": "false when the numbers differ (C58_arguments_unchecked): extra arguments are dropped unread, missing ones are accepted"
 },
 "C42": {
  "status": "partial",
  "note": "Fresh names are distinct from each other and from names in use for the first 65536 requests; the counter then wraps (C42_wraps), and is_name_available answers the opposite of its name (C42_available_inverted)."
 },
 "C43": {
  "status": "proved",
  "note": ""
 },
 "C44": {
  "status": "partial",
  "note": "Effects of all switches proved for all combinations; --disallow-shadowing is ignored unless writing files, --skolemnise has no effect, the two rewrite switches do the same, --cvc5 keeps rewrite rules, the default command differs from auto, pretty JSON is not pretty (C44_no_effect, C44_default_differs, C44_cvc5_partial, C44_output)."
 },
 "C59": {
  "status": "partial",
  "note": "Distinct symbols have distinct printed names except that evaluate_msg/evaluate_cond are not reserved (C59_evaluate_clash)."
 },
 "C28": {
  "status": "partial",
  "note": "For graphs whose contents hide nothing (no quantifier symbols, no message macro calling itself) the reported cells are exactly those reachable; the input flag of a cell is always false, the cells of input are always empty, and quantifier contents and cell arguments are not scanned (counterexamples proved)."
 },
 "C29": {
  "status": "partial",
  "note": "Instantiation is exact when the parameters are numbered from one; loaded files number them from zero (C29_loaded, C29_counterexample), so the parameters are left or shifted."
 },
 "C25": {
  "status": "partial",
  "note": "Completeness of the key search of uf-cma, for protocols and roots without first-order quantifiers, when the variables the search introduces do not clash and unification misses nothing. The converse is C25_reported_partial: what is reported is reached otherwise than as a key, when keys are written as casts of names."
 },
 "C26": {
  "status": "partial",
  "note": "Completeness of the main search of uf-cma with the dependency graph of the code (with and without hmac); exec not followed, no first-order quantifiers, no variable clash; counterexamples for each."
 },
 "C30": {
  "status": "partial",
  "note": "Inputs, cells, exec fully; messages/conditions of time points when parameters do not clash; quantifier symbols when argument variables are those of the surrounding formula."
 },
 "C31": {
  "status": "partial",
  "note": "Exact equivalence when listed variables have distinct numbers and inhabited sorts and are not free in results that do not list them; counterexamples when either fails; holds for the results of a search under the hypotheses of C26."
 },
 "C32": {
  "status": "partial",
  "note": "Sound for every emitted axiom without the legacy option (find symbols: after a suitable choice of the Skolem functions); counterexample for the legacy congruence axioms."
 },
 "C33": {
  "status": "partial",
  "note": "Meaning preserved when evaluated variables have unevaluated sorts and no quantifier symbol is reached; counterexamples for variables and quantifier symbols; panic on quantifiers with wrong arity."
 },
 "C60": {
  "status": "partial",
  "note": "Base functions, connectives, equality and conditional in full; negation and quantifiers in one direction, with a counterexample for the other."
 },
 "C27": {
  "status": "partial",
  "note": "False of the code: C27_general_says states what the axiom over all messages says, C27_general_counterexample and C27_signature_counterexample exhibit a structure in which MACs (signatures) verify and the intended statement is true but the generated axiom is false, since the message and the signature are exchanged."
 },
 "C61": {
  "status": "partial",
  "note": "Proved for protocols and candidates on which the searches are complete (C25, C26) and whose variables range over the sorts unforgeability is stated for; C61_message_variable_counterexample shows that the code generates a false axiom for a candidate with a variable that stands for a message. The number of the fresh variable is computed without the Expander; C67 shows that it is the same."
 },
 "C62": {
  "status": "partial",
  "note": "C62_mac_found and C62_signature_found hold for every verification written in a top-level term of the problem; those under a quantifier of the term algebra, whose contents are not looked into, are forgotten (C62_hidden_counterexample). What the axioms say is proved for candidates as in C61."
 },
 "C46": {
  "status": "partial",
  "note": "The axioms for functions, for sorts that cannot hold a nonce, and the uniqueness axioms are proved for every structure; the unfolding axioms of quantifier symbols, steps, cells and inputs are proved when no variable of the protocol is captured and no argument is a message. What is left out is false: C46_exec_counterexample, C46_capture_counterexample, C46_message_argument_counterexample. The same is proved without assuming that symbols are free, hence for the evaluated realm, when the predicate is read as \"cannot be computed without\" (C46_nonce_evaluated_partial)."
 },
 "C63": {
  "status": "partial",
  "note": "As C46 for the predicates of the MAC, signature and ciphertext assumptions, except the unfolding axioms emitted for the ignored functions themselves, which are false: C63_ignored_counterexample."
 },
 "C64": {
  "status": "partial",
  "note": "C64_found (no decryption is forgotten) holds for those written in a top-level term; those under a quantifier of the term algebra are forgotten (C64_hidden_counterexample). C64_correct holds without restriction. The instances are proved true for candidates as in C61, provided their side condition implies that randomness is well used; the code does not ensure that (C64_reuse_counterexample, C64_leak_counterexample), may emit an open formula (C64_open_counterexample), and its axiom over all messages is never well sorted (C64_general_ill_sorted). C64_encryptions_partial: a ciphertext whose side condition was computed uses a name as the randomness of every encryption found."
 },
 "C65": {
  "status": "partial",
  "note": "C65_function, C65_not_of_sort, C65_define, C65_nonce, C65_covered and C65_predicates hold for every structure in which the axioms are true; the unfolding axioms (C65_special_partial, C65_occurs_partial) when the variables the search introduces do not clash."
 },
 "C66": {
  "status": "partial",
  "note": "For protocols and roots without first-order quantifiers, when the variables the search introduces do not clash; a variable that stands for a term of the algebra is reported through the subterm predicate."
 },
 "C67": {
  "status": "partial",
  "note": "Proved when the parameters that quantifier symbols replace are numbered as variables of the problem, or occur in no candidate. Otherwise the enumeration may not end (C67_diverges) or miss a variable, so that the number is taken (C67_clash_counterexample); contents are not enumerated (C67_contents_counterexample)."
 },
 "C68": {
  "status": "partial",
  "note": "Generalisation is proved for literals without ite whose unknown terms are each expected at one sort (C68_generalises_partial), and for all literals when the tool runs with debug assertions and does not stop (C68_generalises_debug); it fails otherwise (C68_sorts_counterexample). Sorts agree, but arguments may be missing and sides of equalities may differ. Instances may give false axioms (C68_false_axiom_counterexample)."
 },
 "C69": {
  "status": "partial",
  "note": "All rules are valid in every model of the symbols except simpl-tuple-2 and ite-eq-1, which are invalid in each of them (C69_unsound) and make all terms equal (C69_collapse)."
 },
 "C70": {
  "status": "partial",
  "note": "Side conditions hold except inside copies of the replaced encryption and under input (refuted by C70_copy_counterexample, C70_input_counterexample), and when the new key is not the randomness (C70_kp_randomness_counterexample); they hold entirely when the encryption occurs along one path and input is not used. The searches always end; they find everything on acyclic e-graphs but not with cycles (C70_cycle_counterexample)."
 },
 "C71": {
  "status": "partial",
  "note": "Proved: every symbol of the problem is declared exactly once, no sort twice, sorts before use when there are names; all assertions of the file are true in every execution in which the assumptions hold, and unsatisfiability of the text implies the query there (evaluated realm for the cryptographic assumptions; gt and the direct exec definition only with the meaning their axioms give). Conversely every structure with finitely many time points in which the assertions are true is an execution with the orders, assertions, macros, exec and cells of the problem (C71_enough_partial, without the cryptographic assumptions). Refuted: with memory cells the symbolic file has no model (C71_cells_counterexample); evaluated symbols and the sort of names may be used undeclared (C71_evaluated_counterexample, C71_name_sort_counterexample)."
 },
 "C72": {
  "status": "partial",
  "note": "Proved: every list of statements written as in GrammarSpec (any blanks, comments, optional `;`, all spellings of the operators) is read as exactly these statements, in debug and release builds; so writing is unambiguous and the layout does not matter. The specification leaves out the texts that are misread: assignments with a mistake are silently dropped (C72_lost_assignment_counterexample), a statement after `assert-crypto` is swallowed (C72_swallowed_counterexample), options taken for arguments, `msg!` of something else than a step, `!=` after a name, names that start with a keyword."
 },
 "C73": {
  "status": "proved",
  "note": "For every text, every build and every choice of the Unicode letters; the time is not bounded (nested brackets are read twice at each level, which can be exponential)."
 },
 "C74": {
  "status": "partial",
  "note": "Proved for every text: a release build crashes only on the three mistakes listed (C74_crashes), never without `msg!`, `cond!` and `[` (C74_no_crash), and a file that the grammar accepts and that has none of the listed pairs is read, in debug and release builds (C74_accepts). Refuted: the three mistakes do crash (C74_options_counterexample, C74_msg_counterexample, C74_find_counterexample)."
 },
 "C75": {
  "status": "partial",
  "note": "Proved for every text that a debug build reads, if `msg!` and `cond!` have at most one argument; a release build then reads the same. Missing: what a release build reads and a debug build does not (see C72); where two names could meet without a blank in a term, the specification allows any split. Refuted without the condition: further arguments of `msg!` are dropped (C75_dropped_counterexample)."
 },
 "C76": {
  "status": "partial",
  "note": "Proved for statements with readable names, at most one option (none after a name), assignments in steps, no guards, and infix operators other than `===` with at least two arguments; read back up to `f()` for `f`. Also for the names and terms that come from Squirrel. Refuted in general: guards of orders are not printed, several options are separated by commas that the grammar lacks, options after a name become arguments, steps without assignments crash or change, `===` and one-argument operators cannot be read, and encoded names can contain `#` and `$`."
 },
 "C77": {
  "status": "proved",
  "note": "For files of Squirrel's form: the indices of an action are those of its control flow, conditions have no variables, the cell an update writes uses the same variables in all systems, encryptions and signatures come with their associated functions, and the first global macro of an action has no more inputs than the action has steps plus one. Counterexamples show what happens without these."
 },
 "C78": {
  "status": "proved",
  "note": "The panics that remain are characterised: the three mistakes of C74 and functions into a type of the file or Bitstring (counterexamples). Debug builds may panic on more texts while reading (C74)."
 },
 "C79": {
  "status": "partial",
  "note": "Proved for interpretations in which the types converted to Message range over the same values and projections follow C35's order; for subtypes the statement is false (C79_subtype_counterexample)."
 },
 "C80": {
  "status": "partial",
  "note": "C80_contents covers every statement of the problem; the statement about models (C80_sound_partial, C80_valid_partial, with traces and orders C80_trace_sound_partial, C80_trace_valid_partial) leaves out the cryptographic assumptions, requires operators without definitions, and reads the inputs of macros as the code does, which is not the input of the action (C80_own_input_counterexample)."
 },
 "C81": {
  "status": "partial",
  "note": "What is read is what was written and the format is unambiguous, without restriction; what is written is read only if it is nested less than 128 deep, which is a limit of serde_json that the code does not lift (C81_depth_counterexample). Tags of variables are part of Squirrel's format but not of what is read (C81_tag_counterexample)."
 },
 "C82": {
  "status": "proved",
  "note": "For every well-sorted file, text and term. The rules are those the code implements: protocol terms are compared as messages only, so that an equality of indices is not accepted in a step (C82_index_counterexample), and more than the rules is accepted (C82_mixed_counterexample: an equality between different sorts in a formula)."
 },
 "C83": {
  "status": "partial",
  "note": "For every clean and well-sorted file and term. Without these hypotheses it is false of the code: C83_equality_counterexample (an equality between a step and a Boolean is accepted), C83_let_counterexample (a `let` of a message in a formula is evaluated twice). Clean is the hypothesis of C20 (no capture by macros, no message argument where a formula expects its value)."
 },
 "C84": {
  "status": "partial",
  "note": "From a well-sorted and clean file to the text given to the prover. Missing: what is missing in C71 (`gt`, the direct definition of `exec`, cryptographic assumptions in the evaluated realm only); the cryptographic assumptions are stated on the problem and not on the text; hypotheses on the shape of the texts: clean (C20), created functions over variables of distinct numbers with evaluable contents (`TblPlain`), user formulas through which evaluation can be pushed (`UserForms`, a computable check), parameters of steps used if there are cells (`ParamsUsed`, see C12)."
 },
 "C85": {
  "status": "partial",
  "note": "The claim is false of the code (counterexamples): only parts that start at offset 0 are located. Proved: exactly when the code is right, and what it shows otherwise. Not modelled: the drawing of the source line."
 },
 "C86": {
  "status": "partial",
  "note": "Proved of `StrRef`, for maps of any contents and any hash function. False of `MOw` (counterexamples); there only between values that are all owned or all borrowed."
 },
 "C87": {
  "status": "partial",
  "note": "Proved of plain iterators. On results and options the claim is false (counterexamples); proved exactly when values and errors are returned there."
 },
 "C88": {
  "status": "proved",
  "note": "C88_exact: conversely, a list of points of which the orders are true is a trace as far as orders can say, when common indices are named alike and indices are distinct. Without this, and for the choice of values in one branch, the converse is false (C88_names_counterexample, C88_choice_counterexample); the claim itself is not affected."
 },
 "C89": {
  "status": "partial",
  "note": "C89_declared_partial assumes that no function is given more arguments than it has parameters, does not restrict the variables of let to its scope, and is about the texts that are read: not the bodies of macros that are not used. Without these restrictions the claim is false (C89_counterexample). C89_squirrel_operators_counterexample: problems made of Squirrel files that use operators with a definition are refused, since their uses mention a function that is declared as a macro."
 },
 "C90": {
  "status": "partial",
  "note": "C90_declared and C90_signatures are proved of every accepted file that is written. C90_sorts_partial assumes that the file declares some name: without names the sort of names is used but not declared (C90_name_sort_counterexample). A file with a function that gives steps is accepted but makes the generators panic (C90_step_functions_counterexample). Which constructors a datatype has is C71_datatypes; the names they are printed with are C59."
 },
 "C91": {
  "status": "partial",
  "note": "C91_file, C91_overwrite and C91_dir are proved of files of the tool's own format. For Squirrel files the claim (the i-th problem is written to loc/i) is false: C91_side_by_side_counterexample, C91_squirrel_file_counterexample and C91_squirrel_stdout_counterexample, proved for all problems and file systems. What holds is C91_squirrel_lemmas_partial and C91_squirrel_one_partial. C91_keeps and C91_squirrel_keeps: no directory is replaced and nothing outside the location changes, in any run. Permissions, links and full disks are not modelled."
 },
 "C92": {
  "status": "partial",
  "note": "C92_proved_partial is C84_proved_partial for the text with the names of the code, for files whose names are as in NamesClear; that generated numbers differ is a hypothesis (that the symbols of the text come from the file and that its declarations are well formed is C94; that its formulas are closed with the right numbers of arguments is a hypothesis). Without NamesClear the claim is false: C92_distinct_counterexample, C92_variable_counterexample (the solver's answer is wrong), C92_sort_counterexample, C92_symbol_counterexample, C92_undeclared_counterexample (the text is not well formed). C92_command_line_partial: the same for the options of every command line but --symbolic with --legacy-evaluate."
 },
 "C93": {
  "status": "partial",
  "note": "Proved for all interleavings of the threads of a round: C93_called, C93_running, C93_untouched, C93_clean, C93_stays, C93_starts, C93_starts_saved, C93_solvers, C93_command, C93_vampire_args, C93_args_injective. C93_kept_partial needs an absolute directory: with a relative one the claim is false (C93_relative_counterexample, C93_elsewhere_counterexample). Permissions, full disks, links and other programs changing the files are not modelled."
 },
 "C94": {
  "status": "partial",
  "note": "C94_symbols_partial: all symbols of the written file, for accepted files whose texts are well sorted and clean (FileWs, FileClean). C94_predicates, C94_destructors, C94_skolems: the declared signatures; C94_declarations: all declarations are well formed, for every accepted file. C94_used_declared_partial: every symbol of a formula is declared or known to the solver, in the symbolic realm with bitstring functions and subterm predicates (otherwise false: C71_evaluated_counterexample, C94_subterm_counterexample; the latter needs an option that the command line never sets, C44_global_partial). C94_used_partial: for all options, what is used and not declared can only be a symbol made for evaluation or for an assumption. C94_used_symbolic_partial: without bitstring functions only evaluated functions and the equality of bitstrings can be missing. C94_command_line_partial: the same for the options of every command line (used symbols: with --symbolic; false without switches, C94_switches_counterexample). Missing: symbols for files that are accepted but not well sorted or clean, and that every application in the file is well sorted for these signatures."
 }
}