import Verif.Subst
/-
Model of the sequence of proof obligations and of the automatic solver runs. Paths are relative to
/repo/crates/cryptovampire/src:
problem/problem/pbl_iterator.rs, problem/problem/mod.rs (extra instances), lib.rs (auto_run,
run_to_dir, run_to_file), runner/runners.rs, runner/runner_helper.rs, runner/vampire.rs,
runner/z3.rs.

Threads, channels and processes are not modelled as such: what a round of solvers does is given by
the list of results in the order in which the channel delivers them (any list, hence any schedule),
and by the result of killing the children.
-/
namespace CV

/-- Models the part of `Problem` (problem/problem/mod.rs:41-61) which the iteration and the runner
touch. `extra` is the `HashSet` of extra instances as a list without duplicates; `φ` stands for
`ARichFormula`. -/
structure Pbl (φ : Type) where
  assertions : List φ
  lemmas : List φ
  query : φ
  extra : List φ

/-- Models `State` (pbl_iterator.rs:9-13). -/
inductive PState | noLemma | done | withLemma
  deriving DecidableEq

/-- Models `PblIterator` (pbl_iterator.rs:50-53). -/
structure PblIter (φ : Type) where
  pbl : Pbl φ
  state : PState

namespace PblIter
variable {φ : Type}

/-- Models `PblIterator::new` (pbl_iterator.rs:101-115); `tru` is `TRUE`. -/
def new (tru : φ) (p : Pbl φ) (withLemmas : Bool) : PblIter φ :=
  if withLemmas then
    { pbl := { p with lemmas := p.lemmas ++ [p.query], query := tru }, state := .withLemma }
  else { pbl := p, state := .noLemma }

/-- Models `PblIterator::next` (pbl_iterator.rs:57-75). The Boolean says whether a problem is
handed out (`Some(&mut self.pbl)`); the problem handed out is the one in the new state. -/
def next (it : PblIter φ) : Bool × PblIter φ :=
  match it.state with
  | .done => (false, it)
  | .noLemma => (true, { it with state := .done })
  | .withLemma =>
    match it.pbl.lemmas with
    | nq :: rest =>
      (true, { it with
        pbl := { it.pbl with
          query := nq, lemmas := rest, assertions := it.pbl.assertions ++ [it.pbl.query] } })
    | [] => (false, { it with state := .done })

/-- Models `PblIterator::assert_one` (pbl_iterator.rs:97-99). -/
def assertOne (it : PblIter φ) : Bool := it.state == .noLemma

/-- Models `PblIterator::map(f).collect::<Result<Vec<_>>>()` (pbl_iterator.rs:90-95, 127-137, used in
lib.rs:116-117 and 135-140): call the closure on each problem handed out, keep what it wrote into the
problem, stop at the first error. The closure may rewrite the problem. `none`: out of fuel. -/
def mapCollect {σ ε U : Type} (f : σ → Pbl φ → Except ε U × Pbl φ × σ) :
    Nat → σ → PblIter φ → Option (Except ε (List U) × PblIter φ × σ)
  | 0, _, _ => none
  | n + 1, s, it =>
    match next it with
    | (false, it') => some (.ok [], it', s)
    | (true, it') =>
      match f s it'.pbl with
      | (.error e, p', s') => some (.error e, { it' with pbl := p' }, s')
      | (.ok u, p', s') =>
        match mapCollect f n s' { it' with pbl := p' } with
        | none => none
        | some (.ok us, r) => some (.ok (u :: us), r)
        | some (.error e, r) => some (.error e, r)

end PblIter

/-! ### Solver processes -/

/-- Models `RetCodeAndStdout` (runner/runner_helper.rs:14-17). -/
inductive Exit
  | success (stdout : List Char) (code : Int)
  | killed (stdout : List Char)

/-- Models `RunnerOut` (runner/runner.rs:28-41), payloads other than the timeout text erased. -/
inductive Out
  | sat | unsat | timeout (stdout : List Char) | other
  deriving DecidableEq

/-- Models `RunnerError` (runner/error.rs) as far as the verdicts go; `io` stands for every error coming
from outside (spawning, killing, writing files). -/
inductive RErr
  | nothingToDo | disprove | ranOutOfTries (n : Nat) | noNewInstances | noSolver
  | unexpected (code : Int) | noOutput | io (n : Nat)
  deriving DecidableEq

/-- Models the end of `exec_cmd` (runner_helper.rs:52-63): `code` is `ExitStatus::code()`. -/
def execCmd (stdout : List Char) (code : Option Int) : Exit :=
  match code with
  | some c => .success stdout c
  | none => .killed stdout

/-- Models the decision of `VampireExec::run` (vampire.rs:133-135, 173-183). -/
def vampireDecide : Exit → Except RErr Out
  | .success stdout code =>
    if code = 0 then .ok .unsat
    else if code = 1 then .ok (.timeout stdout)
    else .error (.unexpected code)
  | .killed _ => .ok .other

/-- Rust's `char::is_whitespace` (Unicode White_Space), used by `str::trim`. -/
def isWs (c : Char) : Bool :=
  let n := c.toNat
  (9 ≤ n && n ≤ 13) || n == 32 || n == 0x85 || n == 0xA0 || n == 0x1680 ||
  (0x2000 ≤ n && n ≤ 0x200A) || n == 0x2028 || n == 0x2029 || n == 0x202F || n == 0x205F || n == 0x3000

/-- `str::trim`. -/
def trim (s : List Char) : List Char := ((s.dropWhile isWs).reverse.dropWhile isWs).reverse

/-- `str::lines`, before the removal of a final `\r` of each line (which `trim` removes anyway):
pieces between newlines, without the empty piece after a final newline. `acc` is the current
line, reversed. -/
def linesAux : List Char → List Char → List (List Char)
  | acc, [] => if acc = [] then [] else [acc.reverse]
  | acc, c :: s => if c = '\n' then acc.reverse :: linesAux [] s else linesAux (c :: acc) s

/-- `str::lines` (see `linesAux`). -/
def lines (s : List Char) : List (List Char) := linesAux [] s

/-- Models the decision of `Z3Runner::run` (z3.rs:83-101). -/
def z3Decide : Exit → Except RErr Out
  | .success stdout code =>
    if code = 0 then
      match (lines stdout).getLast? with
      | none => .error .noOutput
      | some l =>
        if trim l = "unsat".toList then .ok .unsat
        else if trim l = "sat".toList then .ok .sat
        else if trim l = "timeout".toList then .ok (.timeout [])
        else .ok .other
    else .error (.unexpected code)
  | .killed _ => .ok .other

/-! ### One round of solvers -/

/-- Models `RunnerAndDiscoverer` (runner_helper.rs:134-137); only the kind matters. -/
inductive RKind | runner | discoverer
  deriving DecidableEq

/-- A message on the `finished` channel (runners.rs:216). -/
abbrev Delivery := RKind × Except RErr Out

/-- Models the loop of `autorun_many` over received messages (runners.rs:225-258). `kill` is the
result of `killall`. The result is `None` of the code (proved) as `none` and the texts to analyse
as `some`. -/
def receive (kill : Except RErr Unit) : List (List Char) → List Delivery →
    Except RErr (Option (List (List Char)))
  | acc, [] => match kill with
    | .error e => .error e
    | .ok _ => .ok (some acc)
  | acc, r :: rest =>
    match r with
    | (_, .ok .sat) => match kill with
      | .error e => .error e
      | .ok _ => .error .disprove
    | (_, .ok .unsat) => match kill with
      | .error e => .error e
      | .ok _ => .ok none
    | (.discoverer, .ok (.timeout t)) => receive kill (acc ++ [t]) rest
    | (_, .error e) => match kill with
      | .error e' => .error e'
      | .ok _ => .error e
    | _ => receive kill acc rest

/-- Models `Problem::extend_extra_instances` (problem/problem/mod.rs:124-130) on the set of extra
instances: insertion without duplicates, and the number of new elements. -/
def extendExtra {φ : Type} [DecidableEq φ] (extra new : List φ) : List φ × Nat :=
  let e := new.foldl (fun acc x => if x ∈ acc then acc else acc ++ [x]) extra
  (e, e.length - extra.length)

/-- Models `VampireExec::discover` (vampire.rs:217-250). `search` is the concatenation of
`search_instances` over the crypto assertions; `shift p` is `translate_vars(pbl.max_var_no_extras())`. -/
def discover {φ : Type} [DecidableEq φ] (search : List Char → List φ) (shift : Pbl φ → φ → φ)
    (p : Pbl φ) (out : List Char) : Except RErr (Pbl φ) :=
  let new := search out
  if new = [] then .error .noNewInstances
  else
    let r := extendExtra p.extra (new.map (shift p))
    if r.2 = 0 then .error .noNewInstances else .ok { p with extra := r.1 }

/-- Models the analysis after a round (runners.rs:262-266): each text is handed to its discoverer,
the first error ends the run. The problem is returned as the code leaves it (also on error). -/
def analyse {φ : Type} (disc : Pbl φ → List Char → Except RErr (Pbl φ)) :
    Pbl φ → List (List Char) → Except RErr Unit × Pbl φ
  | p, [] => (.ok (), p)
  | p, t :: ts => match disc p t with
    | .error e => (.error e, p)
    | .ok p' => analyse disc p' ts

/-- Models `autorun_many` (runners.rs:193-270): `true` is `RunnerOut::Unsat`, `false` is
`RunnerOut::Timeout`. -/
def autorunMany {φ : Type} (disc : Pbl φ → List Char → Except RErr (Pbl φ))
    (kill : Except RErr Unit) (ds : List Delivery) (p : Pbl φ) : Except RErr Bool × Pbl φ :=
  match receive kill [] ds with
  | .error e => (.error e, p)
  | .ok none => (.ok true, p)
  | .ok (some ts) => match analyse disc p ts with
    | (.error e, p') => (.error e, p')
    | (.ok _, p') => (.ok false, p')

/-- What happens outside during a run: for each round and current problem, the messages in delivery
order and the result of `killall`. -/
abbrev World (φ : Type) := Nat → Pbl φ → List Delivery × Except RErr Unit

/-- Models the `for i in 1..=n` loop of `autorun` (runners.rs:85-96): `todo` rounds remain, the next
one is number `i`. -/
def rounds {φ : Type} (disc : Pbl φ → List Char → Except RErr (Pbl φ)) (w : World φ) (n : Nat) :
    Nat → Nat → Pbl φ → Except RErr Nat × Pbl φ
  | 0, _, p => (.error (.ranOutOfTries n), p)
  | todo + 1, i, p =>
    match autorunMany disc (w i p).2 (w i p).1 p with
    | (.error e, p') => (.error e, p')
    | (.ok true, p') => (.ok i, p')
    | (.ok false, p') => rounds disc w n todo (i + 1) p'

/-- Models `ntimes.map(NonZeroU32::get).unwrap_or(u32::MAX)` with `ntimes = NonZeroU32::new(num_retry)`
(lib.rs:113, runners.rs:77). -/
def numRounds (numRetry : Nat) : Nat := if numRetry = 0 then 2 ^ 32 - 1 else numRetry

/-- Models `Runners::autorun` (runners.rs:66-97): `nsolvers = 0` is `all_empty()`. -/
def autorun {φ : Type} (disc : Pbl φ → List Char → Except RErr (Pbl φ)) (nsolvers : Nat)
    (numRetry : Nat) (w : World φ) (p : Pbl φ) : Except RErr Nat × Pbl φ :=
  if nsolvers = 0 then (.error .nothingToDo, p)
  else rounds disc w (numRounds numRetry) (numRounds numRetry) 1 p

/-- Models `auto_run` (lib.rs:106-118) followed by the emptiness check (lib.rs:96-99). The world of
the k-th obligation is `w k`. -/
def autoRun {φ : Type} (disc : Pbl φ → List Char → Except RErr (Pbl φ)) (nsolvers numRetry : Nat)
    (w : Nat → World φ) (fuel : Nat) (it : PblIter φ) : Option (Except RErr (List Nat)) :=
  match PblIter.mapCollect (fun k p => let r := autorun disc nsolvers numRetry (w k) p; (r.1, r.2, k + 1))
      fuel 0 it with
  | none => none
  | some (.ok [], _) => some (.error .nothingToDo)
  | some (r, _) => some r

/-- Models `TryFrom<SolverConfig> for Runners` (runners.rs:112-145): which solvers are used; `found`
is `which::which(..).ok().is_some()`. cvc5 is never available. -/
def selectSolvers (enVampire enZ3 foundVampire foundZ3 : Bool) : Except RErr (Bool × Bool) :=
  let v := enVampire && foundVampire
  let z := enZ3 && foundZ3
  if !v && !z then .error .noSolver else .ok (v, z)

/-! ### Writing obligations to files -/

/-- Models `run_to_dir` (lib.rs:126-141) on a file store that never fails: the i-th problem handed
out is written to file number `i`. -/
def runToDir {φ : Type} (fuel : Nat) (it : PblIter φ) : Option (List (Nat × Pbl φ)) :=
  match PblIter.mapCollect (ε := Empty) (fun i p => (.ok (i, p), p, i + 1)) fuel 0 it with
  | some (.ok l, _) => some l
  | _ => none

/-- Models `run_to_file` (lib.rs:150-168): refuses unless the iterator is known to hold one problem. -/
def runToFile {φ : Type} (it : PblIter φ) : Option (Pbl φ) :=
  if it.assertOne then
    match it.next with
    | (true, it') => some it'.pbl
    | (false, _) => none
  else none

/-! ### Names in solver output -/

/-- Number of bytes of a string in UTF-8 (`str.len()`). -/
def byteLen (s : List Char) : Nat := (s.map Char.utf8Size).sum

/-- Models `trim_quotes` (runner/tptp.rs:39-45). `checked`: overflow checks on (debug build), where
`str.len() - 2` panics (`none`) on the one-byte string `'`; otherwise it wraps to a huge number. -/
def trimQuotes (checked : Bool) (s : List Char) : Option (List Char) :=
  match s with
  | [] => some s
  | c :: rest =>
    if c = '\'' ∧ s.getLast? = some '\'' then
      if byteLen s < 2 then (if checked then none else some rest)
      else some (rest.take (byteLen s - 2))
    else some s

end CV
