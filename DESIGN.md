# Formal model of CryptoVampire in Lean 4 — design

The code is read as text from `/repo` (Rust, never built or run here). The model is a set of total, computable
Lean functions in `lean/Verif/`, one module per part of the code, each definition citing the file and lines it
models. Property theorems (`Cnn_…`) live in `*Props.lean` / `*Main.lean` / `*Ex.lean` files next to a small
specification. `MANIFEST.json` (regenerated by `tools/mkmanifest.py`) maps properties to theorems.

## 1. Conventions

* Paths in comments are relative to `/repo/crates/cryptovampire/src`, except `Utils.lean`, `Keys.lean` and `AllOrOne.lean`
  (`/repo/crates/utils/src`) and `Iterators.lean` (`/repo/crates/logic_formula/src`).
* `u32`/`usize` numbers are `Nat`, except where the property is about wrap-around (C42).
* `Arc`, lifetimes, interior mutability and arenas are erased; a function that mutates through `&mut` returns the
  new value. The arena itself is modelled in `Container.lean` (C43).
* A panic (`unwrap`, `assert!`, index out of range, `unreachable!`) is an explicit value: `none`, `Res.panic` or
  `Out.panic`.
* Recursion that the Rust code performs without a termination argument takes fuel. Running out of fuel is a value
  of its own (or shares `none` with panics, where the header of the module says so); theorems are about the runs
  that end, and non-termination is stated as "no fuel suffices".
* Hash-map iteration orders, thread schedules, solver answers, file-system effects and Unicode tables are
  parameters: theorems quantify over all of them.
* When a property is false of the code, the model still follows the code, the negation is proved on a concrete
  witness (`…_counterexample`, `…_fails`, …), and the part that holds is proved as `…_partial`, whose hypotheses
  say exactly what is left out.
* SPECIFICATION modules model no code: `Semantics` (many-sorted first-order structures), `Trace` (executions),
  `SmtSpec` (reading s-expressions), `ParserSpec` (meaning of surface terms), `SearchSpec` (occurrence of a value
  in an execution), `FreeModel` and `StdRun` (concrete structures).

## 2. What is modelled, module by module

| model | code | simplifications |
|---|---|---|
| `Formula`, `Subst`, `Iterators` | `formula/formula/*`, `formula/manipulation/substitution/**`, `formula/variable.rs`, `crates/logic_formula` | symbols are an abstract type |
| `Unifier` | `formula/manipulation/unifier.rs` | fuel |
| `Protocol` | `problem/protocol.rs`, `problem/step.rs`, `problem/cell/**`, `problem/general_assertions/order.rs`, `problem/crypto_assumptions/{unfolding,cell}.rs` | a fixed enumeration of built-in symbols |
| `Deps` | `problem/cell_dependancies/**`, `problem/step.rs:255-270` | nodes are lists, not petgraph indices |
| `Search` | `subterm/mod.rs`, `subterm/traits.rs`, `formula/utils/formula_expander.rs`, the `SubtermAux` implementations of uf-cma, euf-cma and int-ctxt | all results computed, where the code is lazy |
| `Evaluate` | `problem/general_assertions/{evaluate,assertion_preprocessor}.rs`, `formula/function/inner/evaluate.rs` | |
| `Crypto` | `problem/crypto_assumptions/{uf_cma,euf_cma}.rs` | enumeration of candidate variables without `Expander` (equal by C67) |
| `Discover` | `formula/base_formula/tmp_formula.rs`, `runner/tptp.rs:96-150`, `runner/searcher.rs:52-180` | the regex that captures clauses and the crate `tptp` are parameters |
| `Ind` | `crates/indistinguishability/src/{main,ind_cca,enc_kp}.rs` | e-graphs are given by their contents |
| `Expander` | `formula/formula/expanding_formula.rs`, `formula/formula/arc.rs:153-157` | a replaced variable is put on the pile instead of being destructed at once |
| `IntCtxt` | `problem/crypto_assumptions/int_ctxt.rs` | as `Crypto` |
| `Subterm` | axioms of `subterm/mod.rs`, `problem/crypto_assumptions/nonce.rs`, `define_subterms` | comments and declarations left out |
| `Generate` | `problem/problem/mod.rs:111-253` (`generate`, `into_general_file`), `problem/crypto_assumptions/mod.rs`, declarations of `order.rs`, `evaluate.rs` and `subterm/mod.rs` | protocol axioms are over fixed symbols, embedded by `ι` |
| `GrammarPrint` | the `Display` instances in `parser/ast/*.rs` | locations erased; `msg!(s())` is not distinguished from `msg!(s)` |
| `Grammar` | `grammar.pest`, and the conversion of pest's pairs in `parser/ast/*.rs` | pest's semantics of parsing expressions is written down in `run`; Unicode letters are a parameter; source locations erased |
| `Smt` | `smt/smt.rs`, `smt/smt/display.rs`, `formula/file_descriptior/**`, option accessors | text is a list of tokens with their spaces; reading back is in `SmtSpec` |
| `Runner` | `problem/problem/pbl_iterator.rs`, `problem/problem/mod.rs` (part), `lib.rs`, `runner/{runners,runner_helper,vampire,z3}.rs` | a round is the list of delivered results |
| `RoundConc` | threads, channels and processes of one round | killing succeeds; sleeping erased |
| `Ast`, `Parser`, `SigUnify` | `parser/ast`, `parser/parser/parsable_trait.rs`, `formula/sort/sort_proxy.rs`, `formula/function/signature` | locations, error texts |
| `Load` | `parser/parser/{declare,parsing_environement}.rs`, `parse_step_cell_asserts/**` | hash-map order a parameter |
| `Build` | `parser/parser/parsing_environement.rs:198-207, 355-384`, `problem/protocol.rs`, the queries on symbols of `formula/function/**` used by `generate` | names become numbers; the order of hash maps is that of the declarations; the dependency graph is made after `init` is put first |
| `Container`, `NameProps` | `container/**`, names of symbols `formula/function/inner/**` | locks erased (operations atomic) |
| `Cli` | `cli.rs`, `environement/environement.rs`, `lib.rs:52-104`, `main.rs` | clap not modelled |
| `Squirrel`, `SqOrder`, `SqTop`, `SqJson`, `Sanitize`, `AllOrOne` | `squirrel/converters/**`, `squirrel/mod.rs` (locations), `squirrel/json/**`, `crates/utils/src/all_or_one.rs` | serde, serde_json and base64 by their documented behaviour; a JSON text is taken as a value, its characters are not modelled |
| `Utils` | `crates/utils/src/{arc_into_iter,vecref}.rs` | |
| `Keys` | `crates/utils/src/{string_ref,maybe_owned,iter_array}.rs` | reference counts and lifetimes erased; `HashMap` by its documentation |
| `Loc` | `parser/location.rs`, `error/location/*.rs` | pest's spans by their documentation; the drawing of the source line under a located message is left out |

## 3. Properties

| id | modelled | how it is proved | in |
|---|---|---|---|
| C01 | `Substitution::apply` | semantic substitution lemma by induction on formulas; capture witness | SubstProps |
| C02 | `Chain`, `Translate` | structural induction | SubstProps |
| C03 | list / frozen substitutions | list induction, round trip | SubstProps |
| C04 | pile iterators | stack invariant, induction on the total size of the pile | IteratorProps, Piles |
| C05 | `max_var`, translation | fold induction, disjointness; counterexample under quantifiers | SubstProps |
| C06 | collision-avoiding substitution | from C05 | SubstProps |
| C07 | `mgu` | induction on fuel; non-termination for all fuels; linear patterns | UnifierProps, UnifierOn |
| C08 | order axioms | validity in every execution, adequacy; `gt` refuted in every execution | OrderProps, OrderAdequacy |
| C09 | step axioms | validity in every execution | OrderProps |
| C10 | ordering formulas | semantic equivalence; orders may be universally or existentially quantified | OrderProps |
| C11 | exec axioms | induction on the trace; the direct form (the default) refuted | ExecProps |
| C12 | cell axioms | induction on the trace, both directions; two refutations | CellProps |
| C13 | `PblIterator` | invariant over the iteration, entailment | RunnerProps |
| C14 | `from_axiom` for all flags, whole file | the text read back is unsatisfiable iff the query is entailed | SmtFileProps |
| C15 | display normalisation | semantic equality by induction | SmtProps |
| C16, C17, C18, C48 | runs, retries, exit codes, quotes | induction on delivered results and on rounds; case analysis over all codes / texts | RunnerProps |
| C19–C23 | elaboration | one invariant: the formula produced means what the surface term means, by induction on fuel and terms | ParserMain, ParserMain2, ParserProps |
| C24, C54–C58, C45 | loading a file | fold invariants over declarations; characterisation of acceptance | LoadProps, LoadSteps, LoadAll, LoadMain |
| C25, C26 | search with dependency graph | everything that occurs in an execution is covered by a visited pair | SearchProps, SearchParts, SearchMain |
| C27 | axiom over all messages | what it says, and a structure in which it is false | CryptoEx |
| C28 | dependency graph | reachability in both directions | DepsProps |
| C29 | instantiation of steps | substitution lemma; off by one refuted on loaded files | DepsProps, DepsLoad |
| C30 | unfolding of macros | semantic equality per kind of macro | UnfoldProps |
| C31 | existential closure | equivalence of truth; counterexamples | ExistProps |
| C32, C60 | evaluation axioms | validity (after a choice of Skolem functions) / what they determine | EvaluateProps |
| C33 | propagation of evaluation | induction on formulas; counterexamples | EvalPush |
| C34 | sort placeholders, signatures | invariants over histories | ParserInv, SigUnify |
| C35, C36, C51 | Squirrel terms, variants | commutation with projection by induction on terms | SquirrelProps, AllOrOneProps |
| C37 | sanitizer | injectivity | SanitizeProps |
| C38, C39 | Squirrel orders, locations | order laws, fold induction | SqOrderProps |
| C40, C41 | iterators over shared slices | refinement to a list window | UtilsProps |
| C42, C59 | names | arithmetic modulo 2^16, disjointness of prefixes | NameProps |
| C43 | arena | invariant over histories | ContainerProps |
| C44 | options | case analysis over all booleans | CliProps |
| C46, C63 | axioms of subterm predicates | true when the predicates are read as occurrence; for nonces, without free symbols (evaluated realm), when read as "cannot be computed without" | SubtermProps, SubtermEx, NonceEvProps, NonceEvEx |
| C47, C49 | `Protocol::new`, unfolding of messages | permutation; semantic equality | ProtocolProps, OrderAdequacy |
| C50 | threads of a round | transition system, invariant and measure | RoundConc |
| C52, C53 | elaboration never panics, ends | induction on fuel; measure on macros | ParserInv, ParserTotal |
| C61, C62 | unforgeability instances | soundness from an assumption on traces; completeness of candidates | CryptoProps, CryptoEx |
| C64 | ciphertext integrity instances | as C61, C62; the side condition on randomness is a hypothesis, refuted twice | IntCtxtProps, IntCtxtEx |
| C65 | axioms of subterm predicates | any interpretation that makes them true implies occurrence: induction on terms | SubtermDef, SubtermDefEx |
| C66, C25 | search, the other direction | a true result comes from a value reached from a root: invariant on visited pairs, and unification is exact | SearchExact, SubtermDefEx |
| C67 | `Expander`, number of the fresh variable | same run as without replacement, by induction on fuel; non-termination and clash refuted | Expander |
| C68 | conversion of printed literals with its map of variables and sort cells | invariant of the map, frame of the cells; two sorts refuted | DiscoverProps, DiscoverEx |
| C69 | the rewrite rules of the prototype for indistinguishability, in models of the symbols | validity of each rule; two rules refuted, collapse of all terms | IndRules |
| C70 | the searches for IND-CCA2 and ENC-KP in an e-graph | soundness of the memoised search; end by a measure; exact on acyclic graphs | IndSearch, IndTotal, IndEx |
| C71 | the whole file of a problem: all axioms and all declarations | each axiom is true by the theorem of its generator, composed with C14 down to the text; permutation of the declared symbols; rank of sorts | GenerateDecls, GenerateProps, GenerateEnough, GenerateEx, GenerateEx2 |
| C72 | the grammar, pest, and the syntax tree, against an inductive specification of how a file is written | by induction on the derivation of the text: each piece is read whatever follows it, as far as that cannot continue it | GrammarLemmas, GrammarSpec, GrammarTerms, GrammarStm, GrammarBugs |
| C73 | as C72 | a rank of the rules that falls along the calls made before anything is read, and the length of the text | GrammarTotal |
| C74 | as C72 | inversion of the pairs that the grammar can leave, then induction on the pair | GrammarSafe, GrammarBugs |
| C75 | as C72, with a second specification, of what a text says, which leaves out how it is split | inversion of the derivations of the grammar together with their texts, then induction on the pair; the two builds are compared conversion by conversion | GrammarBack |
| C76 | the printer of statements (`Display` of the syntax tree) and the names and terms of the Squirrel front end, against the specification of C72 | what is printed is written as C72 says, by induction on the term; the names by the alphabet of the encoding; converted terms by induction on the Squirrel term | GrammarPrint, SqDump |
| C77 | the conversion of a whole Squirrel file (`SqTop`): actions, updates, macros, declarations, orders, cryptographic assumptions, query | reading off one variant commutes with every step of the conversion (`RepV`), which is put together statement by statement; the specification projects the file, not the result | SqTop, SqTopProps |
| C78 | reading a text and loading what is read, as one function of the text (`loadText`) | everything the reader builds is in the grammar the elaborator expects (`gram_read`), so that C72–C75 compose with C24, C54 and C56 | FileLoad |
| C79 | the meaning of Squirrel terms (`sev`, one clause per construct, per system) and of CryptoVampire terms (`pev`), over arbitrary interpretations of the symbols | an interpretation of the converted names exists because no two symbols are confused but those in `Clash` (injectivity of sanitising, C34); then induction on the term through C36's direct conversion | SqMean |
| C80 | the whole problem of a system against a specification of what it consists of (`Contents`: one relation per kind of statement, terms by their meaning), models of files (`SqModel`) and of problems (`CvModel`) | each section of the conversion is read off after projection (C77) and its terms by C79; the model of the problem is the interpretation of C79, with the inputs of an action as its first macro has them | SqProblem |
| C81 | decoding of Squirrel files from JSON values (`SqJson`: what serde derives for the types of `squirrel/json`, with the depth limit of serde_json), against a specification of the format (`SqJsonSpec`) | every decoder is shown to read exactly what its relation says, by strong induction on the remaining depth for types and terms; from there uniqueness, and with a writer that every file can be written | SqJsonSpec, SqJsonProps, SqJsonDump, SqJsonFile |
| C82 | acceptance: elaboration of terms and of files, against a specification of the well-sorted terms (`ElabWs`, rules that know nothing of expected sorts or of the order of elaboration) | by induction on the derivation a bound on recursion is found from which elaboration succeeds in every state that has the variables in scope, with every expected sort that fits (`accepts`); the files by C24 and the same walk through `load` | ElabWs, ElabAccept, ElabLoad |
| C83 | sorts of the formulas of a problem: a specification of well-sorted formulas (`SortSpec`: the sorts of the symbols, contexts by number, the content of the created functions), against elaboration and loading | by induction on the bound on recursion, for every term that is clean (C20) and well sorted (C82), in every scope (`parse_ty`); the steps, cells, orders and formulas of a file by the walk through `load` | SortSpec, ElabTyped, ElabSorted |
| C84 | the way from the file to the query: the problem that the writer of files sees, made of the one that the parser builds (`Build`: numbers for names, kinds and signatures of symbols, steps, cells, orders, top-level terms, assumptions), put together with loading (C24, C83) and generation (C71) | executions of a file are specified by its texts (`FileExec`, `OrderSays`, `UnfoldSays`, `CellsSay`) and proved to be executions of the problem; then by C71 and C14 to the text given to the prover | Build, BuildProps, BuildFile, BuildMain, BuildEx |
| C85 | where an error message says the mistake is: `ASTLocation`, `PestLocation`, `SpanLocation`, and pest's spans and line counting by their documentation | the line and column are specified by splitting the text; the code is proved to find them exactly if the part starts at offset 0 (counterexamples otherwise) | Loc |
| C86 | strings and values that may be borrowed, as keys (`StrRef`, `MOw`) | the contract of `Borrow` and a hash table are specified; induction over the operations and over the insertions | Keys |
| C87 | collecting an iterator into an array | the specification is by the length and the first error; induction | Keys |
| C88 | the orders of the problem of a Squirrel file as statements about lists of points; traces of a protocol are specified by the positions of instances in the control flow (`flowAt`, `Conflict`, `SqTrace`), independently of the code's prefixes and shapes | each order is that of a pair of actions, whose values under an environment are instances with a prefix or a conflict; conversely instances give an environment, as names stay distinct when renamed and sanitized | SqTrace |
| C89 | nothing new is modelled: the loader (Load) and the elaborator (Parser). What a text mentions is specified on its syntax (`Sub`, `Known`), what a file knows by its declarations (`vocOf`) | induction over the fuel of the elaborator: what is elaborated mentions only what the environment knows and variables that are on the stack, which only grows | Scope, ScopeSq |
| C90 | nothing new is modelled: loader, construction of the problem and generators composed (Load, Build, Generate) | the assumptions of C71 on a problem (distinct symbols, sorts of signatures) are proved of the problems made of accepted files; invariant of the elaborator: variables and the functions made for quantifiers are over sorts of the file | BuildDecls, BuildDeclsSyms, BuildDeclsMain |
| C91 | `run_from_json`, `run_from_ast`, `run_to_dir`, `run_to_file`, `save_to_file` on a file system (map from paths to directories and files; no permissions, links or full disks) | induction over the problems with the paths written so far as invariant; the failing cases are proved for all file systems | OutFiles |
| C92 | the names of all symbols and sorts of a loaded problem (`syOf`, `sortTxt`) put into the text output of C14 (`symInfo`) | the text depends only on the names of the symbols that occur (SmtCongr); these differ from each other, from variables and from the words of the solver (from C59), so that C84 applies to the text; counterexamples for the clashes that are accepted | SmtCongr, BuildText, BuildTextProps, BuildTextEx, BuildTextEx2, BuildCli |
| C93 | the command lines of vampire and z3, the solvers of a configuration, and `run_to_tmp`/`build_file` as steps of concurrent threads on a file system | invariant over all interleavings: each thread's file is new, its own, and holds its text from the write until the solver ends; a small reader of vampire's options reads back the command line; counterexamples for relative directories | SolverCall, SolverCallProps |
| C94 | nothing new: all the generators of the file, on the problem of an accepted file | a set of symbols that has those of the input and is closed under what is made of them keeps every generator inside it (one lemma per generator, by induction on terms and on the searches); the set is the symbols of the file; signatures and declarations by cases; that used symbols are declared: the same closure lemmas for the set of declared symbols | GenSyms, GenSyms2, GenSyms3, BuildSyms, BuildSigs, BuildDeclOk, BuildUsed, BuildCli |

The status of each (proved or partial, and what is missing) is in `MANIFEST.json`. C45–C94 were added as the model
grew. No property was found to be inexpressible.

## 4. Where the code disagrees with what a user would expect

Each of these is proved about the model unless marked (read).

**Formulas.** Substitution is not capture avoiding (C01); renumbering variables also renumbers bound occurrences but
not binders (C05). Unification diverges on some inputs and misses unifiers; its result is not a unifier when both
sides share variables (C07). (read) `builtin.rs:73` defines the
unused `FALSE` as the symbol of true.

**Protocol axioms.** The `gt` axiom is false in every execution (C08). The direct form of the exec axiom, which is the
default, is false (C11). Cell axioms are asserted also at the undefined time point, where they can be unsatisfiable,
and their time variable can clash with one of the cell's (C12).

**Elaboration.** Excess arguments are dropped (C21); `=`, `!=`, `<=>`, `==>` chains lose operands from the third on, and
a symbolic `<=>` loops for ever (C22); macros capture (C23); with shadowing allowed the outermost binder wins (C20);
`let` leaks and may be recursive (C19); circular macros loop (C53).

**Loading.** Unknown options are accepted and `recursive` is misspelt in the test (C45); a function returning bitstrings
panics (C56); arguments of assignments are not counted (C58); after a second query the rest of the file is not read
(it is an error all the same, C24). (read) `verify_sign` given with `and`/`or` as symbols diverges; the declared sort of
a cell is ignored; steps and cells are declared in hash-map order.

**Dependencies and unfolding.** The ancestors of the input are always "none, and input"; the input flag of a cell is
always false; contents of quantifier symbols and cell arguments are not scanned; a message that calls itself makes the
construction diverge (C28). Instantiating a step is off by one on loaded files (C29). Unfolding at parameters that
clash, and quantifier symbols whose arguments are not the surrounding variables, give other contents (C30).

**Search.** `exec` is not followed, first-order quantifiers are visited without binding their variables, and
variables introduced twice clash: occurrences are missed (C25, C26, C31).

**Cryptographic axioms.** The axiom over all messages exchanges message and signature (C27). A candidate with a variable
standing for a message gives a false axiom (C61). Special axioms of subterm predicates are false for `exec`, for
variables that are captured, for message arguments and for ignored functions (C46, C63). For ciphertexts, randomness
that is used twice or sent is not noticed, the axiom generated may have free variables, and the axiom over all messages
applies `dec` to a name (C64). Verifications and decryptions written under a quantifier of the term algebra give no axiom
(C62, C64). The enumeration of the variables of a candidate pairs the parameters of a quantifier symbol with its
contents; it may not end, and may miss variables (C67). Reading instances in the output of the solver gives one variable
to two unknown terms, accepts missing arguments, loses all literals under `evaluate_cond`, and yields instances whose
axioms are false (C68). In the prototype for indistinguishability the rules `simpl-tuple-2` and `ite-eq-1` are wrong and
make all terms equal (C69); its searches replace one of several copies of an encryption, accept the randomness as new key,
do not look under `input`, and miss replacements in e-graphs with cycles (C70). The legacy evaluation axioms
are unsound (C32); those for negation and quantifiers say only one direction (C60); propagation of evaluation is wrong
on variables of evaluated sorts and on quantifier symbols and panics on wrong arities (C33).

**The whole file.** In the symbolic realm, a cell and the messages assigned to it are different constructors of one
datatype, and the axiom of the cell says that they are equal: with the assumption `memory_cell`, which the Squirrel
converter always adds, the file has no model and every query is proved. In the evaluated realm the evaluated symbols used
in pushed queries are not declared. Without names the sort of names is not declared, although `cast` uses it, and the
declaration of datatypes can be empty (C71).

**Reading the file.** If there is a mistake in the assignments of a step (say two different operators between the same
brackets), a release build silently reads the step without its assignments and takes their texts for options; the same
mistake elsewhere is reported. A step with options and no assignments crashes, as do `msg!` and `cond!` without an
argument or of a `try find` without variables. `msg!` of anything else than a step is read as the message of a step
that nobody named. The statement after an `assert-crypto` without `;` is swallowed as names of functions, `assert x [o]`
reads `o` as an argument, `(x!=y)` is refused (C72, C74). Printing a problem leaves out the guards of orders, separates options by
commas that cannot be read, and prints steps without assignments such that reading them crashes a debug build (C76).

**Output.** Bound names clashing with symbols are captured (C14); `evaluate_msg`/`evaluate_cond` are not reserved (C59);
the name counter wraps at 2^16 and `is_name_available` answers the opposite (C42). (read) `is_any_assert` omits
`AssertGround`; `RewriteKind::Other` prints the function name; `Not` with several arguments keeps the last.

**Runner and options.** Without vampire every retry repeats the same problem (C17); vampire's exit code 0 is a proof
whatever it printed (C18); quotes of non-ASCII names are not removed (C48); `--disallow-shadowing`, `--skolemnise` and
others have no effect in some commands (C44).

**Squirrel.** If the cell updated depends on the system, each problem also quantifies over the variables of the other one;
a condition with variables, an encryption without its decryption and a macro with more inputs than there are steps
before it make the conversion panic (C77). A quantifier over a type of messages or a tuple type becomes one over all messages (C79). The input of an action's macro is bound to the input of the step before (C80_own_input_counterexample: the `k`-th input, counted from the last, is that of the action whose control flow is the first `k` steps, so a one-step action gets the input of `init`); the inputs of macros after the first, and those used by updates, are not bound. The tags of variables are not read, so two variables of the same name are confused: `x#1 = x#2` becomes `x = x` (C81_tag_counterexample). A file nested deeper than 127 is refused, which 42 nested conjunctions are (C81_depth_counterexample). Of two declarations of a symbol the last one is kept without a warning (C81_last). Indices cannot be compared in a step or a cell, although they can in a formula, and an equality in a formula may be between a step and a Boolean (C82). Files that are not well sorted may be accepted and give ill-sorted formulas: an equality between a step and a Boolean, and a `let` of a message in a formula, which is evaluated twice (C83). An error in a file is located only if it is at the very first character: the location keeps the offsets of the file but the text of the part only, so elsewhere the message is `FAILED TO BUILD SPAN`, and displaying an error of a conversion panics (C85_tree_counterexample, C85_conversion_counterexample). `MOw`, that can be looked up as what it borrows, is a different key when it is owned (C86_owned_counterexample, C86_lost_counterexample). Collecting results into an array says `TooMany` instead of giving the error, or forgets an error after the last element (C87). The orders of a converted problem do not say that a choice with values is made once, and there is no order between two actions that call a common index differently (C88_choice_counterexample, C88_names_counterexample): both only weaken the problem. For every file without names the sort of names is used, by the cast of names to messages, but declared nowhere (C90_name_sort_counterexample). A file with a function that gives steps is accepted, then the generators panic on its problem (C90_step_functions_counterexample). The problems of a Squirrel file are written to `loc/0`, `loc/0/1`, `loc/0/1/2`, … and not to `loc/0`, `loc/1`, `loc/2`, … (C91_side_by_side_counterexample); without lemmas the second problem can never be written since `loc/0` is a file (C91_squirrel_file_counterexample), and with the default location `/dev/stdout` not even the first (C91_squirrel_stdout_counterexample). Names may clash in the text (C92): a function called `distinct` is accepted and read as disequality by the solver, so that a query `false` is answered as proved (C92_distinct_counterexample); a constant called `MX0` is captured by the variable of that name (C92_variable_counterexample); a type may be called `Int` (C92_sort_counterexample); identifiers with a quote are not symbols of the language (C92_symbol_counterexample); a query `p(empty)` is written with `eval$p` and `eval$empty`, which are not declared in the evaluated realm (C92_undeclared_counterexample). `--solver-file-debug` with a relative directory (C93): the directory is made in the current directory, but the prefix of the temporary file, which contains it, is joined to the directory for temporary files; unless the same path exists there no solver is started (C93_relative_counterexample), and if it does the files are put there instead (C93_elsewhere_counterexample). Without switches, and with `--symbolic --no-bitstring`, the written file may use evaluated functions that it does not declare (C94_switches_counterexample: a query `verify(s, m, k)` for all `s`, `m`). When subterms are not defined (an option of the library; the command line always defines them, C44_global_partial), the instances of uf-cma for a query about all messages use a subterm predicate that is not declared (C94_subterm_counterexample). Undeclared names are accepted as arguments beyond the parameters of a function, in the bodies of macros that are not used, and as variables of a `let` outside of it (C89_counterexample). Operators with a definition of a Squirrel file become macros, their uses applications of functions, so that every problem in which one is used is refused with an error (C89_squirrel_operators_counterexample). Tuples come out reversed (C35); `diff` under a symbol that takes a tuple does not commute with projection
(C36); a function and a macro of the same path get one name (C37); the placeholder variable `$dummy` can panic (C38);
output locations accumulate (C39). (read) `<=>` and `=` are both printed `=`.

**Utilities.** `VecRef::Single` reports a wrong length (C41).

## 5. Not modelled

The implementation of the `pest` crate (its semantics is written down, see `Grammar`); the implementation of serde and serde_json, and reading the characters of a JSON text (what is decoded of a JSON value is modelled, see `SqJson`); the solver processes; permissions, links and full disks (where files are written is modelled, see `OutFiles`); logging;
the regex and the crate `tptp` that read vampire's output (arbitrary functions in `Discover`); `smt/writer/*` (dead code); in `crates/indistinguishability`, the crate `egg` (pattern matching, union, rebuilding; an e-graph is the list of nodes of each
class), `grammar.rs` and `linked_list.rs` (not compiled).

## 6. Testing the theorems

`seeded/LOG.jsonl` records every wrong program tried (`tools/mutate.py` applies an edit to a scratch copy of the model,
rebuilds and logs the theorems that fail). Survivors led to tightened theorems, named in the log.

`tools/citations.py` checks the citations of the model: that the files and lines exist and that the item is named in them. It lists as doubtful also citations of a part of a function, which are meant.

## 7. Trusted base

* Lean 4.33.0's kernel. No axioms are added, no `sorry`, no `native_decide`, no `bv_decide`.
* Every theorem of the manifest depends on a subset of `propext`, `Classical.choice`, `Quot.sound`; `AXIOMS.md` lists
  them per theorem (made by `tools/axioms.sh` with `#print axioms`).
* Faithfulness of the reading of the Rust source, of the simplifications named in the comments and in §2, and of the
  specification modules of §1.
