{"id": "C01", "title": "Substitution has its semantic meaning", "statement": "Replacing variables by terms in a formula and then interpreting the result gives the same value as interpreting the original formula with those variables re-valued to the meaning of the terms. The code renames nothing, so this needs that no quantifier of the formula binds a replaced variable or a variable of an inserted term; outside that guard the meaning is really changed.", "quantifier": "every formula, every substitution, every first-order structure and every valuation", "why_tests_cant": "a capture only shows up for particular combinations of variable numbers, binders and interpretations; no finite set of formulas covers them", "anchors": ["crates/cryptovampire/src/formula/manipulation/substitution/substitution.rs: Substitution::apply", "crates/cryptovampire/src/formula/formula/formula.rs: RichFormula::apply_substitution"]}
{"id": "C02", "title": "Chained substitutions compose", "statement": "Applying the chain of two substitutions to a formula gives exactly the formula obtained by applying the first and then the second; in particular translating after substituting equals substituting then translating, and translations add up.", "quantifier": "every formula and every pair of substitutions", "why_tests_cant": "structural property over unbounded formula depth", "anchors": ["crates/cryptovampire/src/formula/manipulation/substitution/substitution.rs: Chain::get, Substitution::chain, Substitution::translate, Translate::get"]}
{"id": "C03", "title": "Frozen substitutions behave like the list substitutions they come from", "statement": "Converting a list of single-variable substitutions to its frozen form and back yields the same list, and the frozen form maps every variable (first match wins) and every formula to the same result; a malformed pair of lists of different length is rejected rather than truncated.", "quantifier": "every list of (variable, term) pairs, every variable, every formula", "why_tests_cant": "duplicates and order matter, sizes unbounded", "anchors": ["crates/cryptovampire/src/formula/manipulation/substitution/variable_substitution/: FrozenSubst, FrozenMultipleVarSubst, MultipleVarSubst, OneVarSubst"]}
{"id": "C04", "title": "Free-variable enumeration is exact", "statement": "Enumerating the free variables of a formula yields a variable if and only if it has an occurrence that is not under a quantifier binding it; enumerating used variables yields exactly the occurring variables, and enumerating all terms yields exactly the subterms, each as often as it occurs.", "quantifier": "every formula, with arbitrary nesting and shadowing of quantifiers", "why_tests_cant": "the enumeration uses one shared explicit stack with truncation; correctness is an invariant over all stack states", "anchors": ["crates/logic_formula/src/iterators.rs: FreeVariableIterator, UsedVariableIterator, AllTermsIterator", "crates/logic_formula/src/outers/owned_pile.rs: OwnedPile::next", "crates/logic_formula/src/outers/ref_pile.rs"]}
{"id": "C05", "title": "Fresh variable numbers are fresh", "statement": "The variable number offered as fresh for a collection of formulas is strictly greater than every variable number in the collection, and translating a formula by that number makes its variables disjoint from the collection's variables without identifying two variables.", "quantifier": "every collection of formulas / variables", "why_tests_cant": "needs arbitrary collections; an off-by-one shows only for the maximal element", "anchors": ["crates/cryptovampire/src/formula/variable.rs: IntoVariableIter::max_var, max_var_or_max, sorts_to_variables", "crates/cryptovampire/src/formula/formula/formula.rs: RichFormula::translate_vars"]}
{"id": "C06", "title": "Collision-avoiding renaming", "statement": "The renaming built to avoid collisions between freshly bound variables and a base set maps every bound variable to a variable outside the base set, keeps different variables different, and leaves variables that do not clash unchanged.", "quantifier": "every list of bound variables and every base set", "why_tests_cant": "depends on the maximal id and overlaps of two arbitrary sets", "anchors": ["crates/cryptovampire/src/formula/utils/formula_expander.rs: make_collision_avoiding_subst"]}
{"id": "C07", "title": "Unification result is sound and the procedure always answers", "statement": "When matching two terms succeeds, instantiating each term with its side of the answer makes them equal; and matching terminates on every pair of terms.", "quantifier": "every pair of formulas", "why_tests_cant": "termination and soundness are over unbounded terms; the code has no occurs check and recurses on stored bindings", "anchors": ["crates/cryptovampire/src/formula/manipulation/unifier.rs: Unifier::mgu, Unifier::does_unify, Unifier::as_equalities"]}
{"id": "C08", "title": "Order axioms hold in every protocol execution", "statement": "Every axiom emitted about the happens/before/at-or-before/after/predecessor symbols is true in every execution of a protocol, i.e. for every finite sequence of distinct time points starting with init.", "quantifier": "every finite execution trace, every valuation of time-point variables", "why_tests_cant": "soundness of an axiom set over an infinite class of models; a test cannot observe an unsound axiom, the prover just proves more", "anchors": ["crates/cryptovampire/src/problem/general_assertions/order.rs: generate"]}
{"id": "C09", "title": "Step constructors are distinct and exhaustive", "statement": "The axioms stating that different steps (and the same step with different indices) are different time points, and that every time point is a step, hold in the term algebra of steps, with the quantified variables of the two sides never identified.", "quantifier": "every protocol (list of steps with arbitrary arities)", "why_tests_cant": "ranges over all protocols", "anchors": ["crates/cryptovampire/src/problem/general_assertions/order.rs: generate (steps)", "crates/cryptovampire/src/problem/protocol.rs: Protocol::max_var"]}
{"id": "C10", "title": "User ordering constraints are translated faithfully", "statement": "A declared order `a < b` becomes the formula saying that whenever b happens a is at or before b, `a > b` the same with sides exchanged, and `a <> b` that the two never both happen, under the declared guard and closed over the declared variables with the declared quantifier.", "quantifier": "every declared order, every trace, every index valuation", "why_tests_cant": "semantic equivalence over all traces", "anchors": ["crates/cryptovampire/src/problem/protocol/ordering.rs", "crates/cryptovampire/src/parser/parser/parse_step_cell_asserts/order.rs"]}
{"id": "C11", "title": "Execution-condition unfolding characterises exec", "statement": "For a step that happens, the emitted execution axioms make exec(step) true exactly when the conditions of all steps up to and including it are true.", "quantifier": "every execution trace and every assignment of condition values to time points", "why_tests_cant": "induction over trace length; the direct form was never compared to the recursive one", "anchors": ["crates/cryptovampire/src/problem/crypto_assumptions/unfolding.rs"]}
{"id": "C12", "title": "Memory-cell axioms determine cell contents", "statement": "In every execution, the two families of axioms emitted for a memory cell are satisfied by the contents obtained by replaying assignments (value written by the last assignment to that exact cell and indices, otherwise the previous value), and conversely any interpretation satisfying them agrees with the replay at every time point.", "quantifier": "every trace, every set of assignments, every index tuple", "why_tests_cant": "history property over all executions", "anchors": ["crates/cryptovampire/src/problem/crypto_assumptions/cell.rs"]}
{"id": "C13", "title": "Lemma chaining is sound", "statement": "The sequence of proof obligations produced for a file with lemmas is such that if all are discharged the original query follows from the original assertions, the k-th obligation may assume exactly the earlier lemmas, no lemma is dropped or assumed before it is proved, and the sequence ends.", "quantifier": "every list of assertions, lemmas and query; every interpretation", "why_tests_cant": "over all lists; an off-by-one would let a lemma prove itself", "anchors": ["crates/cryptovampire/src/problem/problem/pbl_iterator.rs: PblIterator::next, PblIterator::new"]}
{"id": "C14", "title": "Unsatisfiability of the emitted file is entailment of the query", "statement": "The emitted SMT file (declarations, assertions, negated query, check-sat) is satisfied by exactly the interpretations of the declared symbols that satisfy every assertion and falsify the query, whichever of the assert / assert-not / assert-theory / assert-ground / rewrite encodings the flags select.", "quantifier": "every problem, every flag combination, every interpretation", "why_tests_cant": "soundness of 'unsat means proved' quantifies over all models", "anchors": ["crates/cryptovampire/src/smt/smt.rs: SmtFile::from_general_file, Smt::from_axiom, Smt::from_declaration", "crates/cryptovampire/src/smt/smt/display.rs: Display for SmtDisplayer", "crates/cryptovampire/src/runner/z3.rs, vampire.rs: write"]}
{"id": "C15", "title": "Printed SMT terms mean what the internal terms mean", "statement": "Printing degenerate connectives (empty and/or, equality with at most one argument, quantifier with no variable, distinct) yields text with the same meaning as the internal formula under SMT-LIB semantics.", "quantifier": "every internal SMT formula, every interpretation", "why_tests_cant": "special cases occur at any depth", "anchors": ["crates/cryptovampire/src/smt/smt/display.rs: Display for SmtDisplayer<SmtEnv, SmtFormula>", "crates/cryptovampire/src/smt/smt.rs: SmtFormula::from_arichformula"]}
{"id": "C16", "title": "A verdict of success requires an Unsat answer, whatever the scheduling", "statement": "For every order in which solver threads deliver their results, the automatic runner reports success only if a solver answered Unsat on the current problem and no Sat answer or solver error was delivered before it, reports disproof only on a Sat answer, and never ignores a decisive answer that arrived first.", "quantifier": "every number of solvers, every result, every interleaving of deliveries, every number of rounds", "why_tests_cant": "results depend on thread scheduling", "anchors": ["crates/cryptovampire/src/runner/runners.rs: Runners::autorun, Runners::autorun_many"]}
{"id": "C17", "title": "Retries are bounded and each retry makes progress", "statement": "The automatic runner makes at most the configured number of rounds; a further round only starts after every discoverer that timed out contributed at least one instance not known before; otherwise an error is returned.", "quantifier": "every retry bound and every sequence of solver answers", "why_tests_cant": "history property over unbounded rounds", "anchors": ["crates/cryptovampire/src/runner/runners.rs: Runners::autorun", "crates/cryptovampire/src/runner/vampire.rs: discover", "crates/cryptovampire/src/problem/problem/mod.rs: extend_extra_instances"]}
{"id": "C18", "title": "Solver exit status is interpreted conservatively", "statement": "A solver process outcome is read as a proof only for the documented exit code / last output line; any other exit code or output is an error, a timeout or unknown, never success.", "quantifier": "every exit code and every output text", "why_tests_cant": "infinite space of outputs", "anchors": ["crates/cryptovampire/src/runner/vampire.rs", "crates/cryptovampire/src/runner/z3.rs"]}
{"id": "C19", "title": "Elaborated formulas are well scoped", "statement": "After parsing a term under a list of bound variables, every variable of the result is one of those bound variables or bound by a quantifier inside the result, and the list of bound variables is restored.", "quantifier": "every input term and every scope", "why_tests_cant": "needs all nestings of binders, let and find", "anchors": ["crates/cryptovampire/src/parser/parser/parsable_trait.rs"]}
{"id": "C20", "title": "A name refers to its innermost binder", "statement": "With shadowing allowed (the default), an identifier in a formula denotes the variable introduced by the innermost enclosing binder of that name.", "quantifier": "every nesting of binders", "why_tests_cant": "lexical scoping over unbounded nesting", "anchors": ["crates/cryptovampire/src/parser/parser/parsable_trait.rs: ConstVar lookup, VariableBinding"]}
{"id": "C21", "title": "Wrong arity is rejected", "statement": "A function applied to a number of arguments different from its declared arity is rejected with an error; no argument the user wrote is silently discarded.", "quantifier": "every signature and every argument list", "why_tests_cant": "all arities and list lengths", "anchors": ["crates/cryptovampire/src/parser/parser/parsable_trait.rs: parse_application", "crates/cryptovampire/src/formula/base_formula/tmp_formula.rs"]}
{"id": "C22", "title": "Chained infix operators keep every operand", "statement": "A chain t1 op t2 op ... op tn of the same operator is elaborated into a formula in which every operand occurs and whose meaning is the conjunction over consecutive pairs for equality/equivalence, and the n-ary connective for and/or.", "quantifier": "every operator and every chain length", "why_tests_cant": "n unbounded", "anchors": ["crates/cryptovampire/src/parser/parser/parsable_trait.rs: Infix", "crates/cryptovampire/src/parser/ast/infix.rs"]}
{"id": "C23", "title": "Macro application is hygienic", "statement": "Applying a user macro to arguments yields a formula whose meaning is that of the macro body with the parameters valued to the arguments, even when the arguments mention variables of the enclosing scope.", "quantifier": "every macro body, every argument list, every enclosing scope", "why_tests_cant": "variable capture depends on the numbering of scopes", "anchors": ["crates/cryptovampire/src/parser/parser/parsable_trait.rs: AppMacro"]}
{"id": "C24", "title": "Exactly one query and no duplicate declarations", "statement": "A file is accepted only if it contains exactly one query and no two declarations introduce the same name in the same name space; every assertion, lemma, order and crypto assumption of the file is retained in order.", "quantifier": "every list of top-level declarations", "why_tests_cant": "lists of unbounded length", "anchors": ["crates/cryptovampire/src/parser/parser/declare.rs: fetch_all, declare_sorts"]}
{"id": "C25", "title": "Key side condition is exact", "statement": "The search deciding that a key is used only in key position (unforgeability, ciphertext integrity) visits every subterm except the allowed key positions, hence reports no occurrence if and only if every occurrence of the key in the visited terms is in an allowed position.", "quantifier": "every protocol term and every key", "why_tests_cant": "completeness of a search over unbounded terms", "anchors": ["crates/cryptovampire/src/problem/crypto_assumptions/uf_cma/subterm.rs: KeyAux", "crates/cryptovampire/src/problem/crypto_assumptions/euf_cma.rs: KeyAux", "crates/cryptovampire/src/problem/crypto_assumptions/int_ctxt.rs: KeyAux, RandAux"]}
{"id": "C26", "title": "Search for previously authenticated messages is complete", "statement": "The search for honestly computed authentication tags reaches every tag occurring in the inspected term (other than the one being verified).", "quantifier": "every term, including hash equalities in hmac mode", "why_tests_cant": "completeness over unbounded terms", "anchors": ["crates/cryptovampire/src/problem/crypto_assumptions/uf_cma/subterm.rs: UfCmaMainSubtAux"]}
{"id": "C27", "title": "Unforgeability axiom uses the arguments in signature order", "statement": "The general (unpreprocessed) unforgeability axiom applies the verification symbol to arguments of the sorts its signature declares, in the same order as the correctness axiom.", "quantifier": "every declared mac / signature scheme", "why_tests_cant": "the two axioms are generated in different places", "anchors": ["crates/cryptovampire/src/problem/crypto_assumptions/uf_cma.rs", "crates/cryptovampire/src/problem/crypto_assumptions/euf_cma.rs"]}
{"id": "C28", "title": "Dependency ancestors over-approximate every reachable dependency", "statement": "The set of memory cells (and the input flag) reported as ancestors of a cell or of the input contains every cell and the input reachable through assignments, and nothing unreachable.", "quantifier": "every dependency graph", "why_tests_cant": "reachability over unbounded graphs", "anchors": ["crates/cryptovampire/src/problem/cell_dependancies/: graph, ancestors"]}
{"id": "C29", "title": "Instantiating a step replaces exactly its parameters", "statement": "Asking for the message or condition of a step at given arguments yields the declared content with the i-th parameter replaced by the i-th argument.", "quantifier": "every step and every argument tuple", "why_tests_cant": "index shift is invisible on steps without parameters", "anchors": ["crates/cryptovampire/src/problem/step.rs: Step::apply_message, apply_condition", "crates/cryptovampire/src/parser/parser/parsing_environement/cache/step.rs"]}
{"id": "C30", "title": "Recursive macro unfolding covers all steps and keeps variables apart", "statement": "Unfolding a step macro yields, for each protocol step, the step's content instantiated with variables disjoint from those of the surrounding formula.", "quantifier": "every protocol, every surrounding formula", "why_tests_cant": "clashes depend on numbering", "anchors": ["crates/cryptovampire/src/formula/utils/formula_expander.rs: unfold_step_macro, unfold_quantifier, unfold_cell_or_input"]}
{"id": "C31", "title": "Existential closure of a disjunction preserves meaning", "statement": "Collecting a disjunction of existentially quantified formulas into a single quantifier block keeps the meaning of the disjunction.", "quantifier": "every list of formulas with bound variables, every structure", "why_tests_cant": "hoisting over disjunction depends on free variables and on sorts being inhabited", "anchors": ["crates/cryptovampire/src/subterm/mod.rs: into_exist_formula"]}
{"id": "C32", "title": "Evaluation axioms are sound", "statement": "Every axiom emitted to relate a symbolic term to its evaluation is true in every interpretation where evaluation is a homomorphism, including the legacy congruence axioms.", "quantifier": "every declared function, every interpretation", "why_tests_cant": "soundness over all models", "anchors": ["crates/cryptovampire/src/problem/general_assertions/evaluate.rs"]}
{"id": "C33", "title": "Evaluate propagation preserves meaning", "statement": "Pushing evaluation through a formula before sending it to the solver does not change its meaning in interpretations where evaluation is a homomorphism.", "quantifier": "every formula", "why_tests_cant": "rewriting over unbounded formulas", "anchors": ["crates/cryptovampire/src/problem/general_assertions/assertion_preprocessor.rs: propagate_evaluate"]}
{"id": "C34", "title": "Sort inference is consistent", "statement": "A sort placeholder, once determined, never changes; unifying a signature with actual sorts succeeds only if they agree, and accepts every well-sorted application.", "quantifier": "every signature and every list of sorts, every sequence of unifications", "why_tests_cant": "history of updates on shared placeholders", "anchors": ["crates/cryptovampire/src/formula/sort/sort_proxy.rs", "crates/cryptovampire/src/formula/function/signature/mod.rs: Signature::unify"]}
{"id": "C35", "title": "Tuples and projections translated from Squirrel are inverse", "statement": "Translating the i-th projection of an n-tuple from a Squirrel file yields a term equal, under the emitted pair axioms, to the translation of the i-th component.", "quantifier": "every tuple length and every index", "why_tests_cant": "n unbounded", "anchors": ["crates/cryptovampire/src/squirrel/converters/helper_functions/convertion_functions.rs: convert_tuple, convert_projection", "crates/cryptovampire/src/squirrel/converters/top_level_converter.rs: mk_assertions"]}
{"id": "C36", "title": "Bi-system translation commutes with projection", "statement": "Translating a term containing diff operators and selecting system i gives the same result as first selecting the i-th branch everywhere and translating the diff-free term; all systems are covered.", "quantifier": "every term with arbitrarily nested diffs of a common width, every system index", "why_tests_cant": "nesting unbounded", "anchors": ["crates/utils/src/all_or_one.rs: AllOrOne::monad_continue, transpose_iter, try_merge", "crates/cryptovampire/src/squirrel/converters/helper_functions/convertion_functions.rs: convert_diff"]}
{"id": "C37", "title": "Sanitised symbol names do not collide", "statement": "Two different Squirrel symbols that are not both mapped to the same builtin get different names in the translated file.", "quantifier": "every pair of symbol names (arbitrary Unicode strings) and kinds", "why_tests_cant": "injectivity over all strings", "anchors": ["crates/cryptovampire/src/squirrel/converters/mod.rs: Context::sanitize", "crates/cryptovampire/src/squirrel/mod.rs: SanitizeKind"]}
{"id": "C38", "title": "Step order extracted from Squirrel is a strict partial order", "statement": "The dependency relation computed between actions is irreflexive, antisymmetric and transitive, decides exactly the strict-prefix relation, and is disjoint from mutual exclusion.", "quantifier": "every pair / triple of action descriptions", "why_tests_cant": "all action paths", "anchors": ["crates/cryptovampire/src/squirrel/converters/convert_order.rs: depends, mutex_commun_vars, mk_depends_mutex_lemmas"]}
{"id": "C39", "title": "One output location per problem", "statement": "When several problems are produced from one Squirrel file, the i-th problem is written to the user's output location joined with i.", "quantifier": "every number of problems", "why_tests_cant": "the location is updated in place across iterations", "anchors": ["crates/cryptovampire/src/squirrel/mod.rs: run_from_json"]}
{"id": "C40", "title": "Shared-slice iterators yield each element once from both ends", "statement": "Any interleaving of front and back reads of the shared-slice iterator yields each element exactly once, front reads in order and back reads in reverse order, then stays exhausted; the reported remaining length is exact.", "quantifier": "every slice and every interleaving of next / next_back", "why_tests_cant": "all interleavings", "anchors": ["crates/utils/src/arc_into_iter.rs: ArcIntoIter", "crates/utils/src/vecref.rs: VecRef, IterVecRef"]}
{"id": "C41", "title": "Length and emptiness agree with contents", "statement": "For every reference-slice value the reported length is the number of elements its iterator yields and index i is readable if and only if i is smaller than the length.", "quantifier": "every value of the reference-slice type", "why_tests_cant": "representation-dependent", "anchors": ["crates/utils/src/vecref.rs: VecRef::len, is_empty, get, VecRefClone"]}
{"id": "C42", "title": "Generated names are unique", "statement": "Every call to the fresh-name generator returns a name different from all names it returned before and from all names already declared.", "quantifier": "every history of calls and every set of declared names", "why_tests_cant": "long histories (a 16-bit counter)", "anchors": ["crates/cryptovampire/src/container/container.rs: find_free_function_name, is_name_available"]}
{"id": "C43", "title": "Deferred objects are initialised exactly once", "statement": "An object allocated before its content is known can be initialised exactly once; a second initialisation is refused and leaves the first content in place, and reading before initialisation is an error.", "quantifier": "every history of allocations and initialisations", "why_tests_cant": "histories", "anchors": ["crates/cryptovampire/src/container/allocator.rs", "crates/cryptovampire/src/container/reference.rs", "crates/utils/src/utils.rs: AlreadyInitialized, AccessToInvalidData"]}
{"id": "C44", "title": "Command-line flags reach the generated problem", "statement": "Each documented command-line switch has its documented effect for every sub-command (e.g. forbidding shadowing, ignoring lemmas, standard-SMT mode removes every non-standard construct).", "quantifier": "every combination of switches", "why_tests_cant": "exponentially many combinations", "anchors": ["crates/cryptovampire/src/cli.rs: IntoWith<Environement>", "crates/cryptovampire/src/environement/environement.rs: Flags, SubtermFlags"]}
{"id": "C45", "title": "Crypto options are recognised", "statement": "An option list on a crypto assumption is accepted if and only if every word is a documented option, order and repetition do not matter, and each documented word switches on its feature.", "quantifier": "every list of words", "why_tests_cant": "all lists", "anchors": ["crates/cryptovampire/src/problem/crypto_assumptions/mod.rs: CryptoFlag::from_names", "crates/cryptovampire/src/parser/parser/parse_step_cell_asserts/assert_crypto.rs"]}
{"id": "C46", "title": "Nonce axioms are sound", "statement": "The subterm and freshness axioms emitted for nonces hold in the free term algebra of symbolic messages; they also hold for bitstrings, where symbols are not free, when nonces cannot be guessed.", "quantifier": "every term, every pair of names", "why_tests_cant": "soundness over all terms", "anchors": ["crates/cryptovampire/src/problem/crypto_assumptions/nonce.rs"]}
{"id": "C47", "title": "The init step is unique and first", "statement": "Building a protocol puts the init step first, keeps every other step exactly once, and fails if there is no init step.", "quantifier": "every list of steps", "why_tests_cant": "all lists", "anchors": ["crates/cryptovampire/src/problem/protocol.rs: Protocol::new"]}
{"id": "C48", "title": "Solver output names are unquoted faithfully", "statement": "Removing the quotes around a symbol name in prover output returns exactly the characters between the quotes and never panics.", "quantifier": "every string", "why_tests_cant": "Unicode and degenerate strings", "anchors": ["crates/cryptovampire/src/runner/tptp.rs: trim_quotes"]}
{"id": "C49", "title": "Message and condition macros unfold to the declared content", "statement": "Whatever the exec options, the emitted unfolding axioms say exactly that at every happening instance of every step the condition and message macros evaluate to that step's declared condition and message with the parameters replaced by the instance's indices.", "quantifier": "every protocol, every execution, every step instance, every option combination", "why_tests_cant": "ranges over all protocols, executions and interpretations; a test can only show particular formulas being emitted", "anchors": ["crates/cryptovampire/src/problem/crypto_assumptions/unfolding.rs: Unfolding::generate_msg_cond"]}
{"id": "C50", "title": "A round of solvers always ends and leaves nothing behind", "statement": "For every interleaving of solver threads, solver processes and the main thread, a round of the automatic runner cannot deadlock, takes a bounded number of transitions, never waits for a solver to stop by itself once it has a decisive answer, returns only when every thread has finished and no solver process is alive, and returns the verdict determined by the order in which results were sent.", "quantifier": "every number of solvers, every interleaving, every set of results", "why_tests_cant": "depends on thread scheduling and process timing", "anchors": ["crates/cryptovampire/src/runner/runners.rs: autorun_many, killall, Handler", "crates/cryptovampire/src/runner/runner_helper.rs: exec_cmd"]}
{"id": "C51", "title": "Results of several systems never mix", "statement": "Sequencing, mapping, collecting and transposing results that may differ per system gives, for each system, exactly what doing the same with that system's values alone gives; values shared by all systems are duplicated, never dropped, and the number of results is the number of systems.", "quantifier": "every number of systems, every list of values, every continuation", "why_tests_cant": "algebraic law over all widths and functions", "anchors": ["crates/utils/src/all_or_one.rs: AllOrOneShape, transpose_iter, monad_continue, bind, try_merge"]}
{"id": "C52", "title": "Elaboration never panics", "statement": "Whatever term the grammar produces, and whatever its sorts, arities and scoping, turning it into a formula returns a formula or an error (or diverges, see C53): it never aborts the process.", "quantifier": "every term, scope, expected sort and realm, and every set of declarations the declaration phase can produce", "why_tests_cant": "unbounded nesting of terms, macros and steps", "anchors": ["crates/cryptovampire/src/parser/parser/parsable_trait.rs"]}
{"id": "C53", "title": "Elaboration terminates with a unique outcome", "statement": "Elaborating a term terminates, unfolding macros and the messages and conditions of steps, and its outcome is determined by the term and the declarations.", "quantifier": "every term and every set of declarations", "why_tests_cant": "termination over unbounded unfolding; divergence cannot be observed by a test", "anchors": ["crates/cryptovampire/src/parser/parser/parsable_trait.rs: AppMacro, Infix"]}
{"id": "C54", "title": "Loaded steps are the declared steps", "statement": "The steps of the problem built from a file are exactly the declared steps plus init (added when missing), with init first; each has the declared parameters, and its message, condition and assignments mean what the declaration's texts mean, mention only the parameters, the input at that step and the assignment's extra variables, and agree with what msg and cond of that step stand for elsewhere in the file; each cell has exactly the assignments written for it.", "quantifier": "every accepted file, every iteration order of the hash map of functions, every interpretation", "why_tests_cant": "files and texts of unbounded size, and a nondeterministic order", "anchors": ["crates/cryptovampire/src/parser/parser/parse_step_cell_asserts/step.rs: parse_step, parse_steps", "crates/cryptovampire/src/parser/parser/parse_step_cell_asserts/cells.rs: parse_cells", "crates/cryptovampire/src/problem/protocol.rs: Protocol::new"]}
{"id": "C55", "title": "Loaded orders are the declared orders", "statement": "An order declaration yields one order with the declared quantifier and variables, which puts the smaller step first whichever comparison sign is used, excludes for <>, and is guarded by the declared condition or by true.", "quantifier": "every order declaration with clean texts, every interpretation", "why_tests_cant": "all declarations and interpretations", "anchors": ["crates/cryptovampire/src/parser/parser/parse_step_cell_asserts/order.rs: parse_order_with_bvars"]}
{"id": "C56", "title": "Loading never panics", "statement": "Building the problem from a file of the grammar ends in a problem or an error, never in a panic.", "quantifier": "every file of the grammar, every iteration order", "why_tests_cant": "files of unbounded size", "anchors": ["crates/cryptovampire/src/parser/parser/parsing_environement.rs: prbl_from_ast", "crates/cryptovampire/src/parser/parser/declare.rs", "crates/cryptovampire/src/formula/function/function.rs: new_user_term_algebra"]}
{"id": "C57", "title": "Names resolve to their declarations in any order", "statement": "In an accepted file each declared name stands for its own declaration wherever it is written, built-in names keep their meaning, and permuting the declarations changes neither acceptance nor what names stand for (types keeping their order).", "quantifier": "every file and every permutation of it", "why_tests_cant": "factorially many permutations of unboundedly many files", "anchors": ["crates/cryptovampire/src/parser/parser/declare.rs: fetch_all, declare_function, declare_step, declare_cell, declare_let"]}
{"id": "C58", "title": "Assignments give one argument per parameter", "statement": "Every assignment in the problem is to a declared cell, written in a declared step, and has exactly one argument for each parameter of the cell.", "quantifier": "every accepted file, every assignment", "why_tests_cant": "all files", "anchors": ["crates/cryptovampire/src/parser/parser/parse_step_cell_asserts/step.rs: parse_step", "crates/cryptovampire/src/parser/parser/parse_step_cell_asserts/cells.rs"]}
{"id": "C59", "title": "Distinct symbols get distinct names in the generated file", "statement": "In the file generated for an accepted input, two different function symbols (declared by the user, built in, evaluated copies of user functions, symbolic quantifiers, generated predicates, destructors, Skolem and subterm symbols) never print the same name.", "quantifier": "all accepted input files whose declared names follow the identifier grammar, all pairs of symbols that can occur in the generated file, all numbers of generated symbols up to the width of the counter", "why_tests_cant": "the names are built by string concatenation from user-chosen identifiers, sorts and counters; clashes only show for particular names", "anchors": ["crates/cryptovampire/src/formula/function/inner/mod.rs: RefNamed for InnerFunction", "crates/cryptovampire/src/formula/function/inner/", "crates/cryptovampire/src/container/container.rs: find_free_function_name", "crates/cryptovampire/src/parser/mod.rs: USED_KEYWORDS"]}
{"id": "C60", "title": "Evaluation axioms determine evaluation", "statement": "In every interpretation where the emitted evaluation axioms hold, the evaluation of an application is the evaluated symbol applied to the evaluated arguments, and the evaluation of a connective, an equality, a conditional, a negation or a quantifier is the corresponding operation on the evaluations.", "quantifier": "every declared function, every interpretation of the emitted axioms, all argument values", "why_tests_cant": "ranges over all models of the emitted axioms", "anchors": ["crates/cryptovampire/src/problem/general_assertions/evaluate.rs", "crates/cryptovampire/src/formula/function/inner/evaluate.rs"]}
{"id": "C61", "title": "Instances of the unforgeability axioms are sound", "statement": "Every axiom generated for a verification of a MAC, an HMAC comparison or a signature found in the problem holds in every structure in which the scheme is unforgeable (an accepted tag under a key that occurs only as a key is a tag of the same message that occurs in the candidate, unfolding the protocol); the correctness axiom says exactly that MACs verify.", "quantifier": "every protocol, every candidate found in the problem, every structure with an unforgeable scheme", "why_tests_cant": "soundness is about all models of the axioms and all protocols; a wrong axiom makes false queries provable", "anchors": ["crates/cryptovampire/src/problem/crypto_assumptions/uf_cma.rs", "crates/cryptovampire/src/problem/crypto_assumptions/euf_cma.rs"]}
{"id": "C62", "title": "No verification is forgotten, and its axiom says that a tag was found", "statement": "Each verification (or, with hmac, comparison with a MAC) written anywhere in the problem is a candidate; and from the axioms generated it follows that an accepted candidate with a key not found in the protocol has the tag of an equal message among the results of the search.", "quantifier": "every problem, every term of it, every structure in which the axioms hold", "why_tests_cant": "the verification may be at any depth of any term of the problem; what follows from an axiom is about all models", "anchors": ["crates/cryptovampire/src/problem/crypto_assumptions/uf_cma.rs UfCma::preprocess", "crates/cryptovampire/src/problem/crypto_assumptions/euf_cma.rs EufCma::preprocess"]}
{"id": "C63", "title": "The subterm axioms of the cryptographic assumptions are sound", "statement": "The axioms emitted to define the subterm predicates of the MAC, signature and ciphertext assumptions (the plain one and the one that does not look at the key positions) hold in every term-generated structure in which the predicates mean 'occurs, unfolding the protocol'.", "quantifier": "every protocol, every function symbol of the problem, every term, every structure", "why_tests_cant": "the axioms quantify over all terms; a false one makes the search of the prover unsound", "anchors": ["crates/cryptovampire/src/subterm/mod.rs", "crates/cryptovampire/src/problem/crypto_assumptions/uf_cma.rs define_subterms", "crates/cryptovampire/src/problem/crypto_assumptions/euf_cma.rs define_subterms", "crates/cryptovampire/src/problem/crypto_assumptions/int_ctxt.rs define_subterms"]}
{"id": "C64", "title": "Integrity of ciphertexts is instantiated soundly and completely", "statement": "For every decryption with a secret key written in the problem, an axiom is emitted saying that a ciphertext that decrypts is an encryption under that key that occurs in it. The axiom holds whenever encryption has ciphertext integrity and no decryption is forgotten; the axiom of correctness says that decrypting an encryption gives back the message.", "quantifier": "every protocol, every decryption written anywhere in the problem, every structure, every value of the variables", "why_tests_cant": "the truth of the emitted axiom is about all traces and all computational structures, not about one output file", "anchors": ["crates/cryptovampire/src/problem/crypto_assumptions/int_ctxt.rs IntCtxt::preprocess", "crates/cryptovampire/src/problem/crypto_assumptions/int_ctxt.rs IntCtxt::generate", "crates/cryptovampire/src/problem/crypto_assumptions/int_ctxt.rs define_subterms"]}
{"id": "C65", "title": "The subterm predicates are pinned down by their axioms", "statement": "The axioms emitted for a subterm predicate define it: in any structure in which they are all true, if the predicate holds of a name (or message) and a term, then the name is the value of a subterm of the term, or is reached from it by unfolding the protocol. So no proof search fails because a false instance of the predicate was left possible by the axioms.", "quantifier": "every problem, every function symbol and sort of it, every term, every structure in which the axioms hold, every interpretation of the predicates", "why_tests_cant": "an axiom that is missing or too weak does not change any output that is checked; it shows as a structure the tests never build", "anchors": ["crates/cryptovampire/src/subterm/mod.rs preprocess_terms, not_of_sort", "crates/cryptovampire/src/problem/crypto_assumptions/nonce.rs Nonce::generate", "crates/cryptovampire/src/problem/crypto_assumptions/uf_cma.rs define_subterms", "crates/cryptovampire/src/problem/crypto_assumptions/euf_cma.rs define_subterms", "crates/cryptovampire/src/problem/crypto_assumptions/int_ctxt.rs define_subterms"]}
{"id": "C66", "title": "The search for a subterm reports only what occurs", "statement": "If one of the formulas produced by the search for a subterm in the protocol is true, then some value that the protocol computes from the searched terms, by taking arguments and unfolding macros, cells and quantifiers, equals the searched term (or satisfies the subterm predicate, where the search stopped at a variable).", "quantifier": "every protocol, every set of searched terms, every searched term, every structure, every value of the variables", "why_tests_cant": "truth in every structure and for every valuation; a formula that is too weak makes the generated axioms weaker, which no test of a single file notices", "anchors": ["crates/cryptovampire/src/subterm/mod.rs Subterm::preprocess_whole_ptcl", "crates/cryptovampire/src/subterm/traits.rs SubtermAux", "crates/cryptovampire/src/formula/utils/formula_expander.rs", "crates/cryptovampire/src/formula/manipulation/unifier.rs"]}
{"id": "C67", "title": "The fresh variable of a candidate is fresh", "statement": "Enumerating the variables of a candidate of a cryptographic axiom ends and yields all of them, so that the variable the axiom quantifies over (the tagged or encrypted message) differs from every variable of the candidate and of the problem.", "quantifier": "every problem, every candidate found in it, every quantifier symbol with its parameters and contents", "why_tests_cant": "a clash needs particular numbers of variables; the property ranges over all terms, nestings of quantifier symbols and numberings", "anchors": ["crates/cryptovampire/src/formula/formula/expanding_formula.rs Expander", "crates/cryptovampire/src/formula/formula/arc.rs IntoVariableIter for &ARichFormula", "crates/cryptovampire/src/problem/crypto_assumptions/uf_cma.rs UfCma::preprocess", "crates/cryptovampire/src/formula/variable.rs max_var_or_max"]}
{"id": "C68", "title": "Instances found in the solver's output generalise what was printed", "statement": "Every instance taken from the clauses printed by the solver is a well-sorted formula that has the printed literal as an instance (its variables stand for the terms the tool does not know), every literal that mentions the primitive gives one, and adding instances does not make the problem unsound.", "quantifier": "every set of declared functions, every text printed by the solver, every literal in it", "why_tests_cant": "the numbering of variables and the sorts depend on everything met before in the literal; the property ranges over all literals and signatures", "anchors": ["crates/cryptovampire/src/formula/base_formula/tmp_formula.rs TmpFormula::to_rich_formula", "crates/cryptovampire/src/runner/searcher.rs InstanceSearcher", "crates/cryptovampire/src/runner/tptp.rs", "crates/cryptovampire/src/container/container.rs get_function_hash_map"]}
{"id": "C69", "title": "The rewrite rules for indistinguishability only make equal what is equal", "statement": "In every model in which projections, decryption, conditionals, equality and lengths mean what their names say, both sides of every rewrite rule have the same value, so two terms made equal by the rules are equal.", "quantifier": "every rule, every model, every assignment of the variables", "why_tests_cant": "a rule is valid for all instances in all models; a run on one protocol only exercises a few", "anchors": ["crates/indistinguishability/src/main.rs make_general_rules", "crates/indistinguishability/src/main.rs mk_bubble_rules"]}
{"id": "C70", "title": "IND-CCA2 and ENC-KP are applied only where their side conditions hold", "statement": "Every replacement of an encryption reported by the search satisfies the side conditions of the rule: the keys occur only as keys of encryptions (IND-CCA2) and decryptions, the randomness occurs nowhere else, the nonces are different; the search always ends, and reports every place where the conditions hold.", "quantifier": "every e-graph, every encryption in it, every order in which classes are taken", "why_tests_cant": "the conditions speak of all occurrences in all terms of a class, and the memoised search depends on the order and on cycles", "anchors": ["crates/indistinguishability/src/ind_cca.rs IndCCA2", "crates/indistinguishability/src/enc_kp.rs EnkKp", "crates/indistinguishability/src/main.rs Rule"]}
{"id": "C71", "title": "The file sent to the solver means the problem", "statement": "For every problem for which a file is written: every symbol and sort it uses is declared, once and before its use; its assertions are all true in every execution of the protocol in which the chosen assumptions and the user's assertions hold; so when the solver finds the negated query unsatisfiable, the query holds in each of these executions, and the file alone is not contradictory.", "quantifier": "every problem, every choice of assumptions and options, every execution and every interpretation of the symbols", "why_tests_cant": "whether a set of axioms has the intended models, for all protocols, is not visible in the output of a run: an inconsistent file looks like a proof", "anchors": ["crates/cryptovampire/src/problem/problem/mod.rs Problem::into_general_file", "crates/cryptovampire/src/problem/problem/mod.rs Problem::generate", "crates/cryptovampire/src/problem/crypto_assumptions/mod.rs CryptoAssumption::generate", "crates/cryptovampire/src/subterm/mod.rs Subterm::declare"]}
{"id": "C72", "title": "A protocol file is read as it is written", "statement": "For every list of declarations, steps, orders, assertions and macros, and every way to write it down (blanks, comments, optional semicolons and commas, ASCII or Unicode quantifiers, either spelling of the operators), reading the text gives back exactly that list; in particular no text has two meanings.", "quantifier": "every list of statements, with terms of any depth, and every layout", "why_tests_cant": "the parser commits to the first alternative that succeeds, so whether a piece is read right depends on everything that follows it", "anchors": ["crates/cryptovampire/grammar.pest file", "crates/cryptovampire/src/parser/ast/main.rs ASTList::try_from", "crates/cryptovampire/src/parser/ast/step.rs Step::try_from", "crates/cryptovampire/src/parser/ast/macros.rs AppMacro::try_from", "crates/cryptovampire/src/parser/ast/infix.rs Infix::try_from"]}
{"id": "C73", "title": "Reading a file always ends", "statement": "On every text, well formed or not, the parser and the conversion to the syntax tree end with a result, which is the same every time.", "quantifier": "every text", "why_tests_cant": "left recursion or an empty repetition shows only on the texts that reach it", "anchors": ["crates/cryptovampire/grammar.pest file", "crates/cryptovampire/src/parser/ast/main.rs ASTList::try_from"]}
{"id": "C74", "title": "A wrong file is reported, not a crash", "statement": "On every text the reader either gives the statements or reports an error; what the grammar accepts is rejected only for mixing operators between the same brackets.", "quantifier": "every text, release and debug builds", "why_tests_cant": "the conversion indexes into the pairs that the grammar leaves, so it is about all the trees that all the texts can have", "anchors": ["crates/cryptovampire/grammar.pest file", "crates/cryptovampire/src/parser/ast/main.rs ASTList::try_from", "crates/cryptovampire/src/parser/ast/step.rs Step::try_from", "crates/cryptovampire/src/parser/ast/macros.rs AppMacro::try_from", "crates/cryptovampire/src/parser/ast/infix.rs Infix::try_from", "crates/cryptovampire/src/parser/ast/application.rs Application::try_from"]}
{"id": "C75", "title": "What is read stands in the file", "statement": "Whenever reading a text gives a list of statements, the text consists of these statements in this order, each written in full, with only blanks, comments and semicolons between them: nothing in the text is dropped and nothing is made up. Builds with and without debug assertions give the same list whenever the former gives one.", "quantifier": "every text that is read, with terms of any depth", "why_tests_cant": "it is about all the texts that are read, also those nobody meant to write", "anchors": ["crates/cryptovampire/grammar.pest file", "crates/cryptovampire/src/parser/ast/main.rs ASTList::try_from", "crates/cryptovampire/src/parser/ast/step.rs Step::try_from", "crates/cryptovampire/src/parser/ast/macros.rs AppMacro::try_from", "crates/cryptovampire/src/parser/ast/infix.rs Infix::try_from"]}
{"id": "C76", "title": "A printed problem can be read back", "statement": "Printing a list of statements, as is done to dump the problem translated from a Squirrel file, gives a text that is read as the same statements.", "quantifier": "every list of statements that can be built, with terms of any depth, and every translated Squirrel term", "why_tests_cant": "printer and grammar are written separately and have to agree on every combination of constructs", "anchors": ["crates/cryptovampire/src/parser/ast/*.rs: impl Display", "crates/cryptovampire/src/squirrel/mod.rs: CRYTPOVAMPIRE_DUMP", "crates/cryptovampire/src/squirrel/converters/mod.rs: Context::sanitize", "crates/cryptovampire/grammar.pest"]}
{"id": "C77", "title": "A Squirrel file of several systems becomes the problems of its systems", "statement": "Converting a Squirrel file gives either one problem for all systems or one problem per system; the i-th problem is the one obtained by first replacing every diff of the file by the branch of the i-th system and converting that file. Files whose types and terms are supported are converted, and no file makes the conversion panic.", "quantifier": "every file of Squirrel's form, with any number of systems, actions, updates, macros, operators, names and types, and terms of any depth", "why_tests_cant": "the problem of a system is assembled from many separately projected pieces; a mix-up of systems shows only on files where the pieces differ", "anchors": ["crates/cryptovampire/src/squirrel/converters/top_level_converter.rs: convert_squirrel_dump", "crates/cryptovampire/src/squirrel/converters/ast_convertion.rs: ToAst for Action, UpdateRef, MacroRef, ConcreteMacro; Action::prepare_term", "crates/cryptovampire/src/squirrel/json/squirrel_dump.rs: ProcessedSquirrelDump"]}
{"id": "C78", "title": "From the text of a file to the problem", "statement": "The problem built from a text depends only on the statements written in it: it has one formula per assertion and lemma, in order, the only query, and the steps of the file, meaning what was written. Before the problem is built, a release build crashes only on a few named constructions, and otherwise reports an error or succeeds.", "quantifier": "every text, every layout of it, every order of the hash maps, with or without lemmas and shadowing", "why_tests_cant": "it is about all texts; the reader and the loader are tested, if at all, separately and on files that work", "anchors": ["crates/cryptovampire/src/lib.rs: run_from_cv, run_from_ast", "crates/cryptovampire/src/parser/parser/parsing_environement.rs: parse_pbl_from_ast", "crates/cryptovampire/src/parser/ast: ASTList::try_from"]}
{"id": "C79", "title": "Converted Squirrel terms mean what they meant", "statement": "Whatever the operators, names, macros and actions of a Squirrel file mean, there is one interpretation of the names they are given in CryptoVampire under which every term of the file, converted, means in each system what it meant there: `diff` is the branch of the system, tuples are nested pairs, a symbol taking a tuple takes its components, a macro takes its timestamp last, and bound variables are bound alike.", "quantifier": "every interpretation of the symbols over every domain, every term of the supported form of any depth, every system and every valuation of the variables", "why_tests_cant": "it is about all meanings of all terms; the tests of the front end only compare a few outputs syntactically", "anchors": ["crates/cryptovampire/src/squirrel/converters/ast_convertion.rs: ToAst for Term", "crates/cryptovampire/src/squirrel/converters/mod.rs: sanitize"]}
{"id": "C80", "title": "The problem of a system says what the Squirrel file says", "statement": "The problem made of a Squirrel file for one of its systems has a step for each action with its condition, message and updates, a declaration for each cell, name and abstract operator, a macro for each global macro and defined operator, the cryptographic assumption of each operator that has one, the axioms of pairs and the goal under its hypotheses, all with their meaning in that system and nothing else; so every model of the file is a model of the problem in which the query means the goal, and a query that holds in all models of the problem is a goal that holds in all models of the file.", "quantifier": "every Squirrel file of the supported form with any number of actions, macros, operators and systems, and every interpretation of its symbols", "why_tests_cant": "it ranges over all files and all their models", "anchors": ["crates/cryptovampire/src/squirrel/converters/top_level_converter.rs: convert_squirrel_dump", "crates/cryptovampire/src/squirrel/converters/ast_convertion.rs: ToAst for json::Action, prepare_term"]}
{"id": "C81", "title": "A Squirrel file is decoded as it is written", "statement": "A JSON value is accepted as a Squirrel file exactly if it is written as the format says: every structure an object (or array) with each field once, every variant under its name, symbols without the characters reserved for the translation, numbers in range. What is decoded is the one file the value stands for, every file can be written, and tables have the last declaration of each symbol.", "quantifier": "every JSON value of any size and depth, and every file", "why_tests_cant": "it ranges over all JSON values, and says that nothing else is accepted and that nothing is decoded as something else", "anchors": ["crates/cryptovampire/src/squirrel/mod.rs: run_from_json", "crates/cryptovampire/src/squirrel/json/mod.rs: Ident, Variable, CryptoVampireCall", "crates/cryptovampire/src/squirrel/json/term.rs: Term", "crates/cryptovampire/src/squirrel/json/squirrel_dump.rs: SquirrelDump, ProcessedSquirrelDump"]}
{"id": "C82", "title": "A well-sorted file is accepted", "statement": "A file whose declarations are in order and whose steps, assignments, assertions, lemmas, orders, query and cryptographic assumptions are well sorted (by rules that do not mention the elaborator) is made into a problem: reading and elaboration end, without an error and without a crash, whatever the order of the declarations' hash map and in both builds; and the outcome does not depend on how deep recursion may go.", "quantifier": "every file and text, every term in every scope, both realms, every order of the hash map", "why_tests_cant": "it ranges over all well-sorted files; a test shows that one file is accepted", "anchors": ["crates/cryptovampire/src/parser/parser/parsable_trait.rs: Parsable", "crates/cryptovampire/src/parser/parser/parsing_environement.rs: parse_pbl_from_ast", "crates/cryptovampire/src/parser/parser/parse_step_cell_asserts/step.rs: parse_step", "crates/cryptovampire/src/parser/parser/parse_step_cell_asserts/order.rs: parse_order_with_bvars"]}
{"id": "C83", "title": "The problem of a well-sorted file is well sorted", "statement": "Every formula of the problem made of a well-sorted file has the sort its place requires, for the sorts the file declares: messages of steps and contents of cells are messages, conditions are conditions, arguments of cells have the sorts of the parameters, assertions, lemmas and the query are closed Boolean formulas, orders are between steps under a Boolean formula, and the functions created for quantifiers and finds are applied to and contain terms of the right sorts; evaluation is applied exactly where a message or a condition becomes a value.", "quantifier": "every file, every term in every scope, both realms, every order of the hash map", "why_tests_cant": "it ranges over all well-sorted files; the code has no check of the sorts of the formulas it builds, and a prover only shows the ones of one run", "anchors": ["crates/cryptovampire/src/parser/parser/parsable_trait.rs: Parsable", "crates/cryptovampire/src/parser/parser/parsing_environement.rs: parse_pbl_from_ast", "crates/cryptovampire/src/parser/parser/parse_step_cell_asserts/step.rs: parse_step"]}
{"id": "C84", "title": "From the file to the query: what the prover refutes is true of every execution of the file", "statement": "Take an execution of a file as its texts describe it: a sequence of distinct instances of the declared steps starting with init that respects the declared orders, macros and cells whose values are those of the texts of the steps and assignments, and assertions whose texts are true. Then everything that is written to the prover before the query is true in it, the last formula is the meaning of the text of the query, and if the written text has no model the query is true in the execution.", "quantifier": "every file, every execution of any length, every order of the hash map, every option of the generators", "why_tests_cant": "it ranges over all files and executions, and composes parsing, elaboration, generation and printing; a run shows one file and a solver's verdict", "anchors": ["crates/cryptovampire/src/parser/parser/parsing_environement.rs: parse_pbl_from_ast, into_problem", "crates/cryptovampire/src/problem/protocol.rs: Protocol::new", "crates/cryptovampire/src/problem/problem/mod.rs: generate, list_top_level_terms", "crates/cryptovampire/src/formula/function/function.rs: Function"]}
{"id": "C85", "title": "An error message points to the mistake", "statement": "An error about a part of a file is displayed, without a crash, with the line and the column where this part starts in the file.", "quantifier": "every file, every part of it, every error message, with and without backtrace", "why_tests_cant": "it ranges over all files and positions; a test shows the location of one error", "anchors": ["crates/cryptovampire/src/parser/location.rs: ASTLocation, PestLocation", "crates/cryptovampire/src/error/location/pest.rs: SpanLocation", "crates/cryptovampire/src/error/error.rs: Error", "crates/cryptovampire/src/parser/ast/main.rs: ASTList::try_from"]}
{"id": "C86", "title": "A string or a value is the same key whether it is borrowed or owned", "statement": "A string made by any sequence of the operations has the text it was given, accepted by its validator, and is the same key as this text: in a map with such keys, what was stored last under a text is found under this text and under no other, whether keys are borrowed or owned. The same holds of values that may be borrowed.", "quantifier": "every validator, text and sequence of operations, every sequence of insertions, every hash function", "why_tests_cant": "it ranges over all texts, histories and hash functions, with their collisions", "anchors": ["crates/utils/src/string_ref.rs: StrRef", "crates/utils/src/maybe_owned.rs: MOw"]}
{"id": "C87", "title": "Collecting into an array checks the length and gives the first error", "statement": "Collecting an iterator into an array of n elements gives its elements if there are exactly n, and says otherwise whether there are too many or not enough. On an iterator of results or options it gives the first error if there is one.", "quantifier": "every iterator and every length", "why_tests_cant": "it ranges over all lengths and all positions of errors", "anchors": ["crates/utils/src/iter_array.rs: IntoArray, WrongLengthError"]}
{"id": "C88", "title": "The orders of a converted Squirrel problem are true of the traces of the protocol", "statement": "In every trace of a Squirrel protocol, a list of instances of its actions in which what is before an instance in the control flow is before it in the trace and no two instances are in different branches of the same choice, every order of the problem made of the file is true, for all values of its variables.", "quantifier": "every Squirrel file that is converted, every interpretation of it, every trace and all values of the variables of every order", "why_tests_cant": "it ranges over all protocols, traces and index values; a wrong order silently excludes executions, so that attacks are missed", "anchors": ["crates/cryptovampire/src/squirrel/converters/convert_order.rs: mk_depends_mutex_lemmas, mk_depends_lemma, mk_mutex_lemma, mutex_commun_vars", "crates/cryptovampire/src/squirrel/converters/top_level_converter.rs: convert_squirrel_dump"]}
{"id": "C89", "title": "A file that mentions a symbol it does not declare is refused", "statement": "If a file is accepted, every text in it (assertions, lemmas, the query, orders, conditions, messages and assignments of steps) mentions only functions, cells, steps, macros and types that the file declares or that are built in, and variables in scope; only declared cells are assigned.", "quantifier": "every file, every text and every part of a text, every order of the tables and every option of the loader", "why_tests_cant": "it ranges over all files and all positions of a name; a misspelt name that is silently accepted changes the meaning of the protocol", "anchors": ["crates/cryptovampire/src/parser/parser/parsable_trait.rs: Parsable for ast::Term and its parts", "crates/cryptovampire/src/parser/parser/parsing_environement.rs: parse_pbl_from_ast, get_function", "crates/cryptovampire/src/parser/parser/parse_step_cell_asserts/step.rs: parse_step", "crates/cryptovampire/src/parser/parser/parse_step_cell_asserts/order.rs: parse_order_with_bvars", "crates/cryptovampire/src/squirrel/converters/top_level_converter.rs: mk_macros, mk_funs_and_names"]}
{"id": "C90", "title": "The file written for an accepted file declares everything once, with the signatures of the file, and sorts before their uses", "statement": "Whatever file is accepted, the file that is written for the prover declares no symbol and no sort twice; it declares exactly the functions, steps, cells and names of the file, the builtin functions the solver does not know, the functions made for quantifiers, the evaluations and, when wanted, the evaluated counterparts of the functions; each has the sorts its declaration in the file says; and a sort is declared before it is used.", "quantifier": "every file, every order of the hash maps, every option of the generators", "why_tests_cant": "it ranges over all files; a symbol that is declared twice or not at all makes the prover refuse the file, and a wrong signature changes what is proved", "anchors": ["crates/cryptovampire/src/problem/problem/mod.rs: Generator for Problem", "crates/cryptovampire/src/problem/general_assertions/evaluate.rs: generate", "crates/cryptovampire/src/parser/parser/parsing_environement.rs: parse_pbl_from_ast", "crates/cryptovampire/src/formula/function/function.rs: signature, is_builtin"]}
{"id": "C91", "title": "Asked for files, the tool writes every problem to its own place and touches nothing else", "statement": "When files are asked for and nothing is in the way, the problem is written to the location (without lemmas) or its k-th obligation to k.smt in the location (with lemmas), directories on the way are made, and nothing else is changed; of a Squirrel file the i-th problem is written to the i-th place below the location in the same way, and none overwrites another.", "quantifier": "every list of problems, every number of lemmas, every location and every file system", "why_tests_cant": "it ranges over all numbers of problems and all file systems", "anchors": ["crates/cryptovampire/src/squirrel/mod.rs: run_from_json", "crates/cryptovampire/src/lib.rs: run_from_ast, run_to_dir, run_to_file, save_to_file", "crates/cryptovampire/src/cli.rs: ToFile"]}
{"id": "C92", "title": "The names in the text written for an accepted file mean what the file means by them", "statement": "For every accepted file the text written can be read back by a solver, every symbol of it is a symbol of the language, declared in the text and not one of the solver's own, no two symbols or sorts share a name, none is captured by a variable, and if the text has no model then the query of the file holds.", "quantifier": "every accepted file, every options, every execution and every model", "why_tests_cant": "it ranges over all names a file can declare and all symbols made from them", "anchors": ["crates/cryptovampire/src/smt/smt/display.rs: Display for SmtDisplayer", "crates/cryptovampire/src/formula/function/inner/mod.rs: name", "crates/cryptovampire/src/container/utils.rs: find_free_name", "crates/cryptovampire/src/parser/mod.rs: USED_KEYWORDS"]}
{"id": "C93", "title": "Every solver is started on the text written for it, with the limits asked for, and the files go where they were asked for", "statement": "In every round, each solver that is enabled and found can be started; each solver that is started runs the program found, with the time limit of the configuration and the right input language, on a new file holding exactly the text written for this solver for as long as it runs; nothing that existed before is changed; without a directory for the files nothing is left behind, and with one the files are kept in it.", "quantifier": "every configuration, every problem, every file system, every directory and every interleaving of the solvers' threads", "why_tests_cant": "it ranges over all interleavings of concurrent threads and all states of the file system", "anchors": ["crates/cryptovampire/src/runner/runner.rs: run_to_tmp, build_file", "crates/cryptovampire/src/runner/runners.rs: TryFrom<SolverConfig> for Runners, autorun_many", "crates/cryptovampire/src/runner/vampire.rs: VampireArg, run", "crates/cryptovampire/src/runner/z3.rs: run"]}
{"id": "C94", "title": "Every symbol in the written file comes from the input", "statement": "Every function symbol that occurs in the file written for an accepted input, in a declaration or in a formula, is declared in the input, is builtin, or is made from a symbol, a sort or an assumption of the input (evaluated copies of its functions, destructors, Skolem functions, rewriting and subterm predicates for its sorts, splitting predicates); those made have the signature their use needs, declarations are well formed, and every symbol used in a formula is declared or known to the solver.", "quantifier": "every accepted input whose texts are well sorted and clean, every option of the command line", "why_tests_cant": "it ranges over all inputs and over all the terms the searches reach in them", "anchors": ["crates/cryptovampire/src/problem/problem/mod.rs: Problem::generate", "crates/cryptovampire/src/problem/generator.rs", "crates/cryptovampire/src/problem/crypto_assumptions/mod.rs: CryptoAssumption::generate", "crates/cryptovampire/src/subterm/mod.rs: Subterm", "crates/cryptovampire/src/formula/function/function.rs: new_unused_destructors, new_skolem, new_rewrite_function, new_spliting"]}
