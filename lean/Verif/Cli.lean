import Verif.Smt
import Verif.Runner
import Verif.Load
/-
Model of the command line (cli.rs), of the options it sets (environement/environement.rs) and of their use by `run_from_ast`
(lib.rs:52-104) and `main` (main.rs:10-61). Paths are relative to /repo/crates/cryptovampire/src. Parsing of the arguments by
clap is not modelled: `Args` is its result. File names and executables are strings.
-/
namespace CV
namespace Cli

/-- Models `ToFile` (cli.rs:98-133). -/
structure ToFile where
  outputLocation : String
  lemmas : Bool
  assertTheory : Bool
  cvc5 : Bool
  assertGround : Bool

/-- Models `Auto` (cli.rs:136-191); the timeout is a text. -/
structure Auto where
  lemmas : Bool
  numOfRetry : Nat
  timeout : String
  solverFileDebug : Option String
  ignoreLemmas : Bool
  vampireLocation : String
  z3Location : String
  cvc5Location : String
  disableVampire : Bool
  disableZ3 : Bool
  disableCvc5 : Bool

/-- Models `Command` (cli.rs:85-91). -/
inductive Command
  | auto (a : Auto)
  | toFile (t : ToFile)

/-- Models `Default for Auto` (cli.rs:255-271). -/
def Auto.dflt : Auto := ⟨true, 5, "1.0", none, false, "vampire", "z3", "cvc5", false, false, false⟩

/-- The defaults declared to clap for `auto` without any switch (cli.rs:152-194). -/
def Auto.clapDefault : Auto := ⟨false, 5, "1", none, false, "vampire", "z3", "cvc5", false, false, false⟩

/-- Models `Args` (cli.rs:22-83), without the input file and the formats. -/
structure Args where
  evalRewrite : Bool
  cryptoRewrite : Bool
  vampireSubterm : Bool
  skolemnise : Bool
  noPreprocessing : Bool
  legacyEvaluate : Bool
  noBitstring : Bool
  symbolic : Bool
  disallowShadowing : Bool
  command : Option Command

/-! ### Flags -/

/-- Models the bits of `Flags` (environement.rs:40-58). -/
abbrev Flags := BitVec 16
def Flags.LEMMA : Flags := 1 <<< 0
def Flags.ASSERT_THEORY : Flags := 1 <<< 2
def Flags.SKOLEMNISE : Flags := 1 <<< 3
def Flags.LEGACY_EVALUATE : Flags := 1 <<< 4
def Flags.NO_BITSTRING : Flags := 1 <<< 5
def Flags.ASSERT_NOT : Flags := 1 <<< 7
def Flags.ASSERT_GROUND : Flags := 1 <<< 8
def Flags.IGNORE_LEMMAS : Flags := 1 <<< 9
def Flags.DISALLOW_SHADOWING : Flags := 1 <<< 10

/-- Models the bits of `RewriteFlags` and `SubtermFlags` (environement.rs:60-74). -/
abbrev Flags8 := BitVec 8
def RW.EVALUATE : Flags8 := 1 <<< 0
def RW.CRYPTOGRAPHY : Flags8 := 1 <<< 1
def ST.DEFINED : Flags8 := 1 <<< 0
def ST.PREPROCESS_INSTANCES : Flags8 := 1 <<< 1
def ST.PREPROCESS_INPUTS : Flags8 := (1 <<< 2) ||| ST.DEFINED
def ST.PREPROCESS_CELLS : Flags8 := (1 <<< 3) ||| ST.DEFINED
def ST.VAMPIRE : Flags8 := 1 <<< 4

/-- Models `contains` of bitflags. -/
def has {n : Nat} (a b : BitVec n) : Bool := a &&& b == b

/-- Models `mk_bitflag!` (cli.rs:273-286) for one flag. -/
def flag {n : Nat} (b : Bool) (f : BitVec n) : BitVec n := if b then f else 0

/-- Models `-` of bitflags: set difference. -/
def diff {n : Nat} (a b : BitVec n) : BitVec n := a &&& ~~~b

/-- Models `SolverConfig`, `Locations`, `EnabledSolvers` (environement.rs:203-228). -/
structure SolverConfig where
  vampire : String
  z3 : String
  cvc5 : String
  enVampire : Bool
  enZ3 : Bool
  enCvc5 : Bool
  numOfRetry : Nat
  timeout : String
  smtDebug : Option String
  deriving DecidableEq

/-- Models `Environement` (environement.rs:19-37) without the container. -/
structure Env where
  symbolic : Bool
  flags : Flags
  rewriteFlags : Flags8
  subtermFlags : Flags8
  solver : SolverConfig

/-- Models `Into<SolverConfig> for Auto` (cli.rs:384-428). -/
def Auto.toConfig (a : Auto) : SolverConfig :=
  ⟨a.vampireLocation, a.z3Location, a.cvc5Location, !a.disableVampire, !a.disableZ3, !a.disableCvc5, a.numOfRetry, a.timeout,
    a.solverFileDebug⟩

/-- Models `into_with` (cli.rs:288-382). -/
def Args.env (g : Args) : Env :=
  let command := g.command.getD (.auto .dflt)
  let flags := flag g.legacyEvaluate Flags.LEGACY_EVALUATE ||| flag g.skolemnise Flags.SKOLEMNISE |||
    flag (g.noBitstring && g.symbolic) Flags.NO_BITSTRING
  let rewriteFlags := flag g.evalRewrite RW.EVALUATE ||| flag g.cryptoRewrite RW.CRYPTOGRAPHY
  let subtermFlags := ST.PREPROCESS_INPUTS ||| ST.PREPROCESS_CELLS ||| flag (!g.noPreprocessing) ST.PREPROCESS_INSTANCES |||
    flag g.vampireSubterm ST.VAMPIRE
  match command with
  | .auto a =>
    ⟨g.symbolic, flags ||| (flag (a.lemmas && !a.ignoreLemmas) Flags.LEMMA ||| flag a.ignoreLemmas Flags.IGNORE_LEMMAS),
      rewriteFlags, subtermFlags, a.toConfig⟩
  | .toFile t =>
    let flags := flags ||| (flag t.lemmas Flags.LEMMA ||| flag t.assertTheory Flags.ASSERT_THEORY |||
      flag t.assertGround Flags.ASSERT_GROUND ||| flag g.disallowShadowing Flags.DISALLOW_SHADOWING)
    let flags' := if t.cvc5 then diff flags (Flags.ASSERT_GROUND ||| Flags.ASSERT_NOT ||| Flags.ASSERT_THEORY) else flags
    let subterm' := if t.cvc5 then diff subtermFlags ST.VAMPIRE else subtermFlags
    ⟨g.symbolic, flags', rewriteFlags, subterm', { Auto.dflt.toConfig with enVampire := false, enZ3 := false, enCvc5 := false }⟩

/-! ### What the rest of the program sees (environement.rs:91-201) -/

def Env.rewriteEvaluate (e : Env) : Bool := has e.rewriteFlags RW.EVALUATE
def Env.rewriteCrypto (e : Env) : Bool := has e.rewriteFlags RW.CRYPTOGRAPHY
def Env.defineSubterm (e : Env) : Bool := has e.subtermFlags ST.DEFINED
def Env.preprocessInstances (e : Env) : Bool := has e.subtermFlags ST.PREPROCESS_INSTANCES || !e.defineSubterm
def Env.useVampireSubterm (e : Env) : Bool := has e.subtermFlags ST.VAMPIRE && e.symbolic
def Env.noRewrite (e : Env) : Bool := e.rewriteFlags == 0
def Env.useAssertTheory (e : Env) : Bool := has e.flags Flags.ASSERT_THEORY
def Env.useAssertNot (e : Env) : Bool := has e.flags Flags.ASSERT_NOT
def Env.useAssertGround (e : Env) : Bool := has e.flags Flags.ASSERT_GROUND
def Env.useLegacyEvaluate (e : Env) : Bool := has e.flags Flags.LEGACY_EVALUATE && e.symbolic
def Env.noBitstringFunctions (e : Env) : Bool := has e.flags Flags.NO_BITSTRING
def Env.withGeneralCryptoAxiom (e : Env) : Bool := e.symbolic
def Env.areLemmasIgnored (e : Env) : Bool := has e.flags Flags.IGNORE_LEMMAS
/-- `none` is the failure of the assertion (environement.rs:175-180). -/
def Env.useLemmas (e : Env) : Option Bool :=
  if has e.flags Flags.LEMMA then (if e.areLemmasIgnored then none else some true) else some false
def Env.allowShadowing (e : Env) : Bool := !has e.flags Flags.DISALLOW_SHADOWING

/-- Everything the program reads of its options: the accessors called outside environement.rs, the realm and the solver
configuration. `rewrite_evaluate`, `rewrite_crypto` and `skolemnise` have no caller in the compiled program. -/
structure Obs where
  defineSubterm : Bool
  preprocessInstances : Bool
  useVampireSubterm : Bool
  noRewrite : Bool
  useAssertTheory : Bool
  useAssertNot : Bool
  useAssertGround : Bool
  useLegacyEvaluate : Bool
  noBitstringFunctions : Bool
  withGeneralCryptoAxiom : Bool
  areLemmasIgnored : Bool
  useLemmas : Option Bool
  allowShadowing : Bool
  symbolic : Bool
  solver : SolverConfig
  deriving DecidableEq

def Env.obs (e : Env) : Obs :=
  ⟨e.defineSubterm, e.preprocessInstances, e.useVampireSubterm, e.noRewrite, e.useAssertTheory,
    e.useAssertNot, e.useAssertGround, e.useLegacyEvaluate, e.noBitstringFunctions, e.withGeneralCryptoAxiom, e.areLemmasIgnored,
    e.useLemmas, e.allowShadowing, e.symbolic, e.solver⟩

/-- The options of the SMT output (`SmtFile::from_general_file` reads these accessors). -/
def Env.smtOpts (e : Env) : SmtM.Opts := ⟨e.useAssertTheory, e.useAssertNot, e.useAssertGround, e.noRewrite, !e.symbolic⟩

/-- Models `get_output_location` (cli.rs:430-438). -/
def Args.outputLocation (g : Args) : Option String :=
  match g.command with
  | some (.toFile t) => some t.outputLocation
  | _ => none

/-- What `run_from_ast` does with a problem (lib.rs:71-102). -/
inductive Plan
  | dir (loc : String)
  | file (loc : String)
  | solvers (c : SolverConfig)
  deriving DecidableEq

/-- Models the choice made by `run_from_ast` (lib.rs:71-102): which files or solvers, and with or without the lemmas. -/
def Args.plan (g : Args) : Option (Plan × Bool) :=
  g.env.useLemmas.map fun l =>
    match g.outputLocation with
    | some o => (if l then .dir o else .file o, l)
    | none => (.solvers g.env.solver, l)

/-- Models the call of `parse_pbl_from_ast` (lib.rs:61-69). -/
def Args.load (g : Args) (ord : List (String × Prs.Cache) → List (String × Prs.Cache)) (fuel : Nat) (l : List Prs.Decl) :
    Prs.Out Prs.LProblem :=
  Prs.load ord fuel g.env.areLemmasIgnored (Prs.env0 g.env.allowShadowing) l

/-! ### Output of results (main.rs:35-61) -/

/-- Models `Output` (cli.rs:229-241). -/
inductive Output
  | stdout | json | prettyJson | quiet
  deriving DecidableEq

/-- What a user sees: text on the standard output, text on the error output, and whether the process panicked. -/
structure Seen where
  out : String
  err : String
  panicked : Bool
  deriving DecidableEq

/-- Models the end of `main` (main.rs:35-61). `display` and `json` are the printers of results, `json` being
`serde_json::to_string` on the result with the error turned into a text. -/
def report {R E : Type} (debug : Bool) (display : R → String) (showErr : E → String) (json : Except String R → String) (o : Output)
    (res : Except E R) : Seen :=
  match debug, res with
  | true, .error e => ⟨"", showErr e, true⟩
  | _, res =>
    match o with
    | .quiet => ⟨"", "", false⟩
    | .stdout =>
      match res with
      | .ok r => ⟨"", display r, false⟩
      | .error e => ⟨"", showErr e, true⟩
    | .json => ⟨json (res.mapError showErr), "", false⟩
    | .prettyJson => ⟨json (res.mapError showErr), "", false⟩

end Cli
end CV
