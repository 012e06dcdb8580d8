import Verif.Smt
import Verif.Runner
import Mathlib.Data.List.Infix
set_option linter.unusedSimpArgs false
set_option linter.unusedVariables false
/-
Property C93: how the solvers are called. Models, relative to /repo/crates/cryptovampire/src, the command
lines of runner/vampire.rs and runner/z3.rs, the configuration of runner/runners.rs, and the files of
`run_to_tmp` and `build_file` (runner/runner.rs), with the solvers running concurrently.

The file system is a map from absolute paths to directories and files. Permissions, links, full disks and
other programs are not modelled, nor are `.` and `..` in paths.
-/
namespace CV
namespace Slv
open SmtM (Txt)

/-! ### Command lines -/

/-- Models `vampire_suboptions` (vampire.rs:71-107). -/
inductive Syntax | smtLib2 | tptp | auto deriving DecidableEq
/-- See `Syntax`. -/
inductive Satur | discount | otter | lrs | fmb | z3 deriving DecidableEq
/-- See `Syntax`. -/
inductive SatS | minisat | z3 deriving DecidableEq

/-- Models `VampireArg` (vampire.rs:36-69); `τ` is the type of the numbers with fractions. -/
inductive VArg (τ : Type)
  | cores (n : Nat) | memoryLimit (n : Nat) | mode | slowness (n : Nat) | timeLimit (t : τ) | inputSyntax (s : Syntax) | newCnf (b : Bool)
  | saturation (s : Satur) | avatar (b : Bool) | satSolver (s : SatS) | showNew (b : Bool) | inlineLet (b : Bool)

/-- Models `ToArgs<1> for bool` (vampire.rs:126-130). -/
def onOff (b : Bool) : Txt := if b then "on".toList else "off".toList

/-- Models `ToArgs<1>` of the sub-options (vampire.rs:71-107). -/
def Syntax.txt : Syntax → Txt
  | .smtLib2 => "smtlib2".toList | .tptp => "tptp".toList | .auto => "auto".toList
/-- See `Syntax.txt`. -/
def Satur.txt : Satur → Txt
  | .discount => "discount".toList | .otter => "otter".toList | .lrs => "lrs".toList | .fmb => "fmb".toList | .z3 => "z3".toList
/-- See `Syntax.txt`. -/
def SatS.txt : SatS → Txt
  | .minisat => "minisat".toList | .z3 => "z3".toList

variable {τ : Type}

/-- Models `ToArgs<2> for VampireArg` (vampire.rs:43-49, 54-69); `shw` is `f64::to_string`. -/
def VArg.toArgs (shw : τ → Txt) : VArg τ → Txt × Txt
  | .cores n => ("--cores".toList, Nat.toDigits 10 n)
  | .memoryLimit n => ("--memory_limit".toList, Nat.toDigits 10 n)
  | .mode => ("--mode".toList, "portfolio".toList)
  | .slowness n => ("--slowness".toList, Nat.toDigits 10 n)
  | .timeLimit t => ("--time_limit".toList, shw t)
  | .inputSyntax s => ("--input_syntax".toList, s.txt)
  | .newCnf b => ("--newcnf".toList, onOff b)
  | .saturation s => ("--saturation_algorithm".toList, s.txt)
  | .avatar b => ("--avatar".toList, onOff b)
  | .satSolver s => ("--sat_solver".toList, s.txt)
  | .showNew b => ("--show_new".toList, onOff b)
  | .inlineLet b => ("--inline_let".toList, onOff b)

/-- Models the command of `VampireExec::run` (vampire.rs:148-168): arguments after the name of the program. -/
def vampireCmd (shw : τ → Txt) (extra args : List (VArg τ)) (file : Txt) : List Txt :=
  ((extra ++ args).flatMap fun a => [(a.toArgs shw).1, (a.toArgs shw).2]) ++ [file]

/-- Models `DEFAULT_VAMPIRE_ARGS` (vampire.rs:253-259). -/
def defaultArgs : List (VArg τ) := [.inputSyntax .smtLib2, .showNew true, .avatar false, .inlineLet true, .newCnf true]

/-- Models the command of `Z3Runner::run` (z3.rs:59-77). -/
def z3Cmd (extra args : List Txt) (file : Txt) : List Txt := extra ++ args ++ [file]

/-! ### Files -/

/-- A path as it is written: absolute or not, and its components. -/
structure Pth where
  abs : Bool
  comps : List Txt

/-- Where things are: absolute paths. -/
abbrev Place := List Txt

/-- Models `Path::join`, as used by tempfile (see `base`). -/
def Pth.join (p q : Pth) : Pth := if q.abs then q else ⟨p.abs, p.comps ++ q.comps⟩

/-- What a path stands for; `cwd` is the current directory. -/
def Pth.place (cwd : Place) (p : Pth) : Place := if p.abs then p.comps else cwd ++ p.comps

inductive Node
  | dir
  | file (t : Txt)
  deriving DecidableEq

abbrev FS := Place → Option Node

def isDir (fs : FS) (p : Place) : Bool := match fs p with | some .dir => true | _ => false
def isFile (fs : FS) (p : Place) : Bool := match fs p with | some (.file _) => true | _ => false

/-- `std::fs::create_dir_all`, called in runner.rs:251. -/
def mkdirAll (fs : FS) (p : Place) : Option FS :=
  if p.inits.any (isFile fs) then none else some fun q => if q <+: p then some .dir else fs q

def put (fs : FS) (p : Place) (n : Option Node) : FS := fun q => if q = p then n else fs q

/-- A solver that is to be started: its name, the file it reads and its command line. -/
structure Solver where
  name : Txt
  /-- `Runner::write`; `none` is a panic. -/
  text : Option Txt
  /-- Program and arguments, given the path of the file. -/
  argv : Txt → List Txt

/-- Where the tool runs: the current directory, `std::env::temp_dir()`, and how a place is written. -/
structure Host where
  cwd : Place
  tmp : Pth
  show_ : Place → Txt

/-- The directory in which `Builder::tempfile` creates files with the prefix that `build_file` gives (runner.rs:241-261): the prefix is a path, which is joined to the
directory for temporary files (tempfile 3.14, `Builder::tempfile`, `create_helper`). Simplification: the components of the prefix before its last are taken as
part of the directory. -/
def base (h : Host) (saveTo : Option Pth) : Place :=
  match saveTo with
  | some p => (h.tmp.join p).place h.cwd
  | none => h.tmp.place h.cwd

/-- The names of the files (runner.rs:242, 209-215, tempfile `tmpname`); `r` is the random part. -/
def fileName (s : Solver) (r : Txt) : Txt := "cryptovampire-".toList ++ s.name ++ r ++ ".smt".toList

/-! ### Running the solvers of a round -/

/-- Where a thread is in `run_to_tmp` (runner.rs:186-206). -/
inductive Phase
  | idle
  | made
  | created (p : Place)
  | written (p : Place)
  | running (p : Place)
  | done
  | failed

/-- A solver was started with this command line while its file had these contents. -/
structure Call where
  solver : Nat
  argv : List Txt
  file : Place
  contents : Option Node

structure St where
  fs : FS
  ph : Nat → Phase
  calls : List Call

/-- One thread's next phase. -/
def St.to (st : St) (i : Nat) (p : Phase) : St := { st with ph := fun j => if j = i then p else st.ph j }

/-- The steps of the threads of a round (runners.rs:200-220), in any order. -/
inductive Step (h : Host) (saveTo : Option Pth) (S : List Solver) : St → St → Prop
  /-- runner.rs:245-254: the directory is made if one is given -/
  | mkdir {st fs} (i s) (hs : S[i]? = some s) (hi : st.ph i = .idle) (hd : ∀ p, saveTo = some p → isFile st.fs (p.place h.cwd) = false ∧
      mkdirAll st.fs (p.place h.cwd) = some fs) (hn : saveTo = none → fs = st.fs) : Step h saveTo S st (({ st with fs := fs } : St).to i .made)
  /-- runner.rs:245-251: it cannot be made -/
  | noDir {st} (i s p) (hs : S[i]? = some s) (hi : st.ph i = .idle) (hp : saveTo = some p)
      (hd : isFile st.fs (p.place h.cwd) = true ∨ mkdirAll st.fs (p.place h.cwd) = none) : Step h saveTo S st (st.to i .failed)
  /-- runner.rs:256-261: a file that does not exist yet is created -/
  | create {st} (i s r) (hs : S[i]? = some s) (hi : st.ph i = .made) (hd : isDir st.fs (base h saveTo) = true)
      (hf : st.fs (base h saveTo ++ [fileName s r]) = none) :
      Step h saveTo S st (({ st with fs := put st.fs (base h saveTo ++ [fileName s r]) (some (.file [])) } : St).to i (.created (base h saveTo ++ [fileName s r])))
  /-- runner.rs:261: it cannot be created -/
  | noFile {st} (i s) (hs : S[i]? = some s) (hi : st.ph i = .made) (hd : isDir st.fs (base h saveTo) = false) : Step h saveTo S st (st.to i .failed)
  /-- runner.rs:199: the problem is written to it -/
  | write {st} (i s p t) (hs : S[i]? = some s) (hi : st.ph i = .created p) (ht : s.text = some t) :
      Step h saveTo S st (({ st with fs := put st.fs p (some (.file t)) } : St).to i (.written p))
  /-- runner.rs:199: a panic while it is written; the file is dropped -/
  | panic {st} (i s p) (hs : S[i]? = some s) (hi : st.ph i = .created p) (ht : s.text = none) :
      Step h saveTo S st (({ st with fs := if saveTo.isSome then st.fs else put st.fs p none } : St).to i .failed)
  /-- runner.rs:204, vampire.rs:154-170, z3.rs:67-80: if the file is there, the solver is started -/
  | start {st} (i s p) (hs : S[i]? = some s) (hi : st.ph i = .written p) (hf : isFile st.fs p = true) :
      Step h saveTo S st (({ st with calls := ⟨i, s.argv (h.show_ p), p, st.fs p⟩ :: st.calls } : St).to i (.running p))
  /-- runner.rs:205: when the solver has ended the file is removed unless it is kept (runner.rs:260) -/
  | finish {st} (i s p) (hs : S[i]? = some s) (hi : st.ph i = .running p) :
      Step h saveTo S st (({ st with fs := if saveTo.isSome then st.fs else put st.fs p none } : St).to i .done)

/-- The states a round can get to. -/
inductive Reach (h : Host) (saveTo : Option Pth) (S : List Solver) (fs : FS) : St → Prop
  | init : Reach h saveTo S fs ⟨fs, fun _ => .idle, []⟩
  | step {st st'} (r : Reach h saveTo S fs st) (s : Step h saveTo S st st') : Reach h saveTo S fs st'

/-! ### The solvers of a configuration -/

/-- Models `SolverConfig` (environement.rs:220-227). -/
structure Config (τ : Type) where
  vampire : Bool
  z3 : Bool
  vampireLoc : Txt
  z3Loc : Txt
  timeout : τ
  smtDebug : Option Pth

variable {F : Type}

/-- Models `TryFrom<SolverConfig> for Runners` (runners.rs:112-145), `autorun` (runners.rs:66-84) and the `Runner`s (vampire.rs:140-211, z3.rs:27-110): `which` finds the program.
An empty list is the error `NoSolver`. -/
def solvers (shw : τ → Txt) (which : Txt → Option Txt) (K : SmtM.SymInfo F) (o : SmtM.Opts) (g : SmtM.GenFile F) (c : Config τ) : List Solver :=
  (match (if c.vampire then which c.vampireLoc else none) with
    | some exe => [⟨"vampire".toList, SmtM.output K o.vampire g, fun f => exe :: vampireCmd shw [.timeLimit c.timeout] defaultArgs f⟩]
    | none => []) ++
  (match (if c.z3 then which c.z3Loc else none) with
    | some exe => [⟨"z3".toList, SmtM.output K o.z3 g, fun f => exe :: z3Cmd ["-T:".toList ++ shw c.timeout] [] f⟩]
    | none => [])

/-! ### SPECIFICATION -/

/-- How vampire reads its arguments: options with their values, then the file. -/
inductive ReadArgs : List Txt → List (Txt × Txt) → Txt → Prop
  | file (f) : ReadArgs [f] [] f
  | opt {as os f} (n v) (h : ReadArgs as os f) : ReadArgs (('-' :: '-' :: n) :: v :: as) ((n, v) :: os) f

end Slv
end CV
