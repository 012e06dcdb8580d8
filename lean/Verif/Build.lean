import Verif.Generate
import Verif.Load
/-
Model of the way from the parsed problem to the one whose file is written: the problem built by `prbl_from_ast`
(parser/parser/parsing_environement.rs:300-384, `into_problem` 198-207) as seen by `Problem::generate`
(problem/problem/mod.rs:173-253), and the symbols made while the file is written. Paths are relative to
/repo/crates/cryptovampire/src. In the code both are the same arena objects; here the parser's symbols are names and those
of the protocol are numbers, so that this file is mostly a change of representation, together with what the code asks
about a symbol: its kind, its signature, and whether it belongs to the term algebra.
-/
namespace CV
namespace Bld
open Dep Ev Cry Prs

/-- The symbols of a problem. `f`: those known to the parser. `ev`: the evaluated symbol of a base function
(`EvaluatedFun`, formula/function/inner/evaluated_fun.rs). The others are made by `new_skolem`, `new_unused_destructors`,
`new_rewrite_function`, `Subterm::new` (one per sort, or one) and `new_spliting` (formula/function/function.rs:113-180,
subterm/mod.rs:102-185). -/
inductive BF
  | f (x : PF)
  | ev (x : PF)
  | sk (g : BF) (i : Nat)
  | dest (g : BF) (i : Nat)
  | rw (s : Srt)
  | sub (k : Nat) (s : Option Srt)
  | split (k : Nat)
  deriving DecidableEq

/-- What the command line decides (environement/environement.rs): the realm, `no_bitstring_functions`,
`use_legacy_evaluate`, `use_vampire_subterm`, `define_subterm`, `preprocess_instances`; and the fuel of the model. -/
structure Opt where
  symbolic : Bool
  noBitstring : Bool
  legacy : Bool
  vampire : Bool
  define : Bool
  instances : Bool
  fuel : Nat

/-! ### Names and numbers -/

/-- The number of a name. -/
def num (P : LProblem) (n : String) : Nat := P.env.functions.findIdx fun p => p.1 == n

/-- The name with a number. -/
def nameAt (P : LProblem) (i : Nat) : String := ((P.env.functions[i]?).map Prod.fst).getD ""

/-- The symbols of the protocol for those of the parser (formula/function/builtin.rs:42-237). -/
def toSym (P : LProblem) : PF → Sym
  | .tru => .bool .tru
  | .fls => .bool .fls
  | .and => .bool .and
  | .or => .bool .or
  | .not => .bool .not
  | .imp => .bool .imp
  | .eq => .bool .eq
  | .ite => .bool .ite
  | .taTrue => .ta .tru
  | .taFalse => .ta .fls
  | .taAnd => .ta .and
  | .taOr => .ta .or
  | .taNot => .ta .not
  | .taImp => .ta .imp
  | .taEq => .ta .eq
  | .taIte => .ta .ite
  | .evalMsg => .evalMsg
  | .evalCond => .evalCond
  | .nameToMsg => .cast
  | .input => .input
  | .taq k => .user (P.env.functions.length + k)
  | .sym n =>
    if n = "happens" then .happens
    else if n = "lt" then .lt
    else if n = "leq" then .leq
    else if n = "gt" then .gt
    else if n = "pred" then .pred
    else if n = "cond" then .cond
    else if n = "msg" then .msg
    else if n = "exec" then .exec
    else if n = "ta$iff" then .ta .iff
    else match P.env.functions.lookup n with
      | some (.func i) => if i.isName then .name (num P n) else .user (num P n)
      | some (.step _ _) => .step (num P n)
      | some (.cell _) => .cell (num P n)
      | none => .user (num P n)

/-- And back. There is no Boolean equivalence but equality (builtin.rs:130-133). -/
def ofSym (P : LProblem) : Sym → BF
  | .bool .tru => .f .tru
  | .bool .fls => .f .fls
  | .bool .and => .f .and
  | .bool .or => .f .or
  | .bool .not => .f .not
  | .bool .imp => .f .imp
  | .bool .eq | .bool .iff => .f .eq
  | .bool .ite => .f .ite
  | .ta .tru => .f .taTrue
  | .ta .fls => .f .taFalse
  | .ta .and => .f .taAnd
  | .ta .or => .f .taOr
  | .ta .not => .f .taNot
  | .ta .imp => .f .taImp
  | .ta .eq => .f .taEq
  | .ta .iff => .f (.sym "ta$iff")
  | .ta .ite => .f .taIte
  | .happens => .f (.sym "happens")
  | .lt => .f (.sym "lt")
  | .leq => .f (.sym "leq")
  | .gt => .f (.sym "gt")
  | .pred => .f (.sym "pred")
  | .cond => .f (.sym "cond")
  | .msg => .f (.sym "msg")
  | .exec => .f (.sym "exec")
  | .input => .f .input
  | .evalMsg => .f .evalMsg
  | .evalCond => .f .evalCond
  | .cast => .f .nameToMsg
  | .step n | .cell n | .name n => .f (.sym (nameAt P n))
  | .user n => if n < P.env.functions.length then .f (.sym (nameAt P n)) else .f (.taq (n - P.env.functions.length))
  | .userEv n => .ev (.sym (nameAt P n))

/-- A formula of the parser over the symbols of the problem. -/
def up (φ : Fm PF) : Fm BF := φ.mapF .f

/-! ### Signatures -/

/-- What `Function::signature` says of the functions with a fixed signature (formula/function/function.rs:336-352). -/
def sigOf (P : LProblem) : PF → Option (List Srt × Srt)
  | .tru | .fls => some ([], .bool)
  | .not => some ([.bool], .bool)
  | .imp => some ([.bool, .bool], .bool)
  | .and | .or | .eq | .ite => none
  | .taTrue | .taFalse => some ([], .condition)
  | .taAnd | .taOr | .taImp => some ([.condition, .condition], .condition)
  | .taNot => some ([.condition], .condition)
  | .taEq => some ([.message, .message], .condition)
  | .taIte => some ([.condition, .message, .message], .message)
  | .evalMsg => some ([.message], .bitstring)
  | .evalCond => some ([.condition], .bool)
  | .nameToMsg => some ([.name], .message)
  | .input => some ([.step], .message)
  | .taq k =>
    match P.tbl[k]? with
    | some (.quant _ _ fr _) => some (fr.map Var.sort, .condition)
    | some (.find _ fr _ _ _) => some (fr.map Var.sort, .message)
    | none => none
  | .sym n =>
    match (P.env.functions.lookup n).map (Cache.info n) with
    | some i => match i.sig with
      | .fixed a o => some (a, o)
      | _ => none
    | none => none

/-- Models `Sort::maybe_evaluated_sort` (formula/sort/mod.rs:92-98, sort/inner/base.rs:22-32). -/
def evalSort : Srt → Option Srt
  | .message => some .bitstring
  | .condition => some .bool
  | _ => none

/-- Models `Sort::evaluated_sort` (sort/mod.rs:227-229). -/
def evaluatedSort (s : Srt) : Srt := (evalSort s).getD s

/-- `fast_insort` (function.rs:330-335). -/
def insort (P : LProblem) : BF → Option (List Srt)
  | .f x => (sigOf P x).map Prod.fst
  | .ev x => (sigOf P x).map fun p => p.1.map evaluatedSort
  | .rw s => some [s, s]
  | _ => none

/-- `signature().out().as_option()` (formula/formula/formula.rs:41): equality, `and` and `or` give Booleans though their
arguments are not fixed. -/
def outSort (P : LProblem) : BF → Option Srt
  | .f .and | .f .or | .f .eq => some .bool
  | .f x => (sigOf P x).map Prod.snd
  | .ev x => (sigOf P x).map fun p => evaluatedSort p.2
  | .sk (.f (.taq k)) i =>
    match P.tbl[k]? with
    | some (.find bs _ _ _ _) => (bs[i]?).map Var.sort
    | _ => none
  | .sk _ _ => none
  | .dest g i => (insort P g).bind fun ss => ss[i]?
  | .rw _ | .sub _ _ | .split _ => some .bool

/-- `Function::sort` (function.rs:86-102) for `ite`. Simplification: the sorts of the branches are compared exactly. -/
def infer : BF → List Srt → Option Srt
  | .f .ite, [.bool, a, b] => if a = b then some a else none
  | _, _ => none

/-! ### What kind of symbol -/

/-- The names of builtin functions that are neither connectives nor base functions (builtin.rs:155-237). -/
def macros : List String := ["happens", "lt", "leq", "gt", "pred", "cond", "msg", "exec"]

/-- Is this a `TermAlgebra::Function`: `empty` and the functions of the file that are not names (declare.rs:176-230). -/
def isBase (P : LProblem) (n : String) : Bool :=
  match P.env.functions.lookup n with
  | some (.func i) => i.sym == .sym n && !i.isName && n ∉ macros && n != "ta$iff"
  | _ => false

/-- Models the matches on `InnerFunction` of `evaluate::generate` (problem/general_assertions/evaluate.rs:36-216), with
the evaluated connectives (inner/term_algebra/connective.rs:68-80). -/
def ekind (P : LProblem) : BF → EKind BF
  | .f .taTrue => .conn [] (.f .tru)
  | .f .taFalse => .conn [] (.f .fls)
  | .f .taAnd => .conn [.condition, .condition] (.f .and)
  | .f .taOr => .conn [.condition, .condition] (.f .or)
  | .f .taImp => .conn [.condition, .condition] (.f .imp)
  | .f .taNot => .notTa
  | .f .taEq => .eqTa
  | .f .taIte => .ite
  | .f .evalMsg | .f .evalCond => .evaluate
  | .f (.taq k) =>
    match P.tbl[k]? with
    | some (.quant q bs fr b) => .taq q bs fr (up b)
    | some (.find bs fr c l r) => .fst bs fr (up c) (up l) (up r)
    | none => .other
  | .f (.sym n) =>
    if n = "ta$iff" then
      if sigOf P (.sym n) = some ([.condition, .condition], .condition) then .conn [.condition, .condition] (.f .eq) else .other
    else if isBase P n then
      match sigOf P (.sym n) with
      | some (a, o) => .base a o (.ev (.sym n))
      | none => .other
    else .other
  | _ => .other

/-- Models `Function::is_term_algebra`. -/
def isTA (P : LProblem) : BF → Bool
  | .f .taTrue | .f .taFalse | .f .taAnd | .f .taOr | .f .taImp | .f .taNot | .f .taEq | .f .taIte | .f .nameToMsg | .f .input => true
  | .f (.taq _) => true
  | .f (.sym n) => n == "cond" || n == "msg" || n == "exec" || n == "ta$iff" || isBase P n ||
      match P.env.functions.lookup n with
      | some (.cell _) => true
      | _ => false
  | _ => false

/-- Models `Function::is_default_subterm` (function.rs:398-403, inner/term_algebra/mod.rs:48-59). -/
def isDefault (P : LProblem) : BF → Bool
  | .f .taTrue | .f .taFalse | .f .taAnd | .f .taOr | .f .taImp | .f .taNot | .f .taEq | .f .taIte | .f .nameToMsg => true
  | .f (.sym n) => n == "ta$iff" || isBase P n
  | _ => false

/-- Models `Function::is_builtin` (function.rs:415-420). -/
def isBuiltin : BF → Bool
  | .f .tru | .f .fls | .f .and | .f .or | .f .not | .f .imp | .f .eq | .f .ite => true
  | _ => false

/-- Models `Function::is_always_datatype` (function.rs:443-448): the names. -/
def isName (P : LProblem) : BF → Bool
  | .f (.sym n) =>
    match P.env.functions.lookup n with
    | some (.func i) => i.isName
    | _ => false
  | _ => false

/-! ### The protocol -/

def gstep (s : LStep) : GStep BF := ⟨.f (.sym s.name), s.vars, up s.condition, up s.message⟩

/-- The step of an assignment (problem/cell/inner/assignement.rs:13). -/
def stepOf (P : LProblem) (a : LAssign) : Option LStep := P.steps.find? fun s => s.name == a.step

def gcell (P : LProblem) (c : LCell) : GCell BF :=
  ⟨num P c.name, c.assigns.filterMap fun a => (stepOf P a).map fun s => ⟨gstep s, a.args.map up, up a.content, a.fresh⟩⟩

def down (P : LProblem) (φ : Fm PF) : SFm := φ.mapF (toSym P)

def pstep (P : LProblem) (s : LStep) : Step := ⟨num P s.name, s.name, s.vars, down P s.condition, down P s.message⟩

def pcell (P : LProblem) (c : LCell) : Cell :=
  ⟨num P c.name, c.args, c.assigns.filterMap fun a =>
    (stepOf P a).map fun s => ⟨pstep P s, a.args.map (down P), down P a.content, a.fresh⟩⟩

def porder (P : LProblem) (o : LOrder) : Ordering :=
  ⟨o.q, o.vars, if o.excl then .excl (down P o.fst) (down P o.snd) else .lt (down P o.fst) (down P o.snd), down P o.guard⟩

/-- Models `Protocol` (problem/protocol.rs:50-76); `init` is already first. -/
def protocol (P : LProblem) : Protocol := ⟨P.steps.map (pstep P), P.cells.map (pcell P), P.orders.map (porder P)⟩

/-- What the search code asks about a symbol (`Function::as_inner`). -/
def kind (P : LProblem) : BF → Kind BF
  | .f .input => .mac .input
  | .f (.taq k) =>
    match P.tbl[k]? with
    | some (.quant _ bs fr b) => .taq bs fr [up b]
    | some (.find bs fr c l r) => .taq bs fr [up c, up l, up r]
    | none => .plain
  | .f (.sym n) =>
    if n = "cond" then .mac .cond
    else if n = "msg" then .mac .msg
    else if n = "exec" then .mac .exec
    else match P.steps.find? fun s => s.name == n with
      | some s => .step (gstep s)
      | none => match P.cells.find? fun c => c.name == n with
        | some c => .cell (gcell P c)
        | none => .plain
  | _ => .plain

/-- Models `Problem::list_top_level_terms` (problem/problem/mod.rs:82-97, problem/protocol.rs:77-105), without extra
instances. -/
def topTerms (P : LProblem) : List (Fm PF) :=
  P.assertions ++ [P.query] ++ P.lemmas ++ P.steps.flatMap (fun s => [s.condition, s.message]) ++
    P.cells.flatMap fun c => c.assigns.map LAssign.content

/-! ### The environment of the generators -/

def lang (P : LProblem) : Lang BF where
  eq := .f .eq
  and := .f .and
  or := .f .or
  imp := .f .imp
  tru := .f .tru
  lt := .f (.sym "lt")
  kind := kind P
  out := outSort P
  infer := infer

/-- `functions`: those of the environment and the quantifiers gathered after the parsing
(parsing_environement.rs:364-372). `evs`: `Evaluator::default` (inner/evaluate.rs:103-112). Simplification: the order of
the hash maps is that of the declarations. -/
def cfg (o : Opt) (P : LProblem) : Cfg BF where
  L := lang P
  not := .f .not
  ite := .f .ite
  evs := [(.message, .f .evalMsg), (.condition, .f .evalCond)]
  evalSort := evalSort
  kind := ekind P
  functions := (P.env.functions.map fun p => .f (p.2.info p.1).sym) ++ (List.range P.tbl.length).map fun k => .f (.taq k)
  sorts := P.env.sorts.map Prod.snd
  symbolic := o.symbolic
  noBitstring := o.noBitstring
  legacy := o.legacy
  rewriteFn := .rw
  skolem := .sk

/-- The symbols of the `k`-th subterm predicate (subterm/kind.rs:68-79, subterm/mod.rs:118-185). -/
def subSym (o : Opt) (P : LProblem) (k : Nat) : Option Srt → Option BF := fun s =>
  if o.vampire then some (.sub k none)
  else s.bind fun s => if s ∈ P.env.sorts.map Prod.snd then some (.sub k (some s)) else none

/-- `is_sound_in_smt` (subterm/mod.rs:538-540) of a predicate on the subterms of a sort. -/
def sound (o : Opt) (s : Srt) : Bool := Gen.isDatatype o.symbolic s || o.symbolic

/-- Models `CryptoAssumption` (problem/crypto_assumptions/mod.rs:41-48) with the predicates and symbols its `generate` makes
(uf_cma.rs:97-131, euf_cma.rs:64-90, int_ctxt.rs:70-105, nonce.rs:32-42). -/
def toAss (o : Opt) (P : LProblem) (k : Nat) : Crypto → Gen.Ass BF
  | .nonce => .nonce (subSym o P (3 * k))
  | .memoryCell => .cell
  | .ufCma m v h => .ufCma ⟨.f (.sym m), .f (.sym v), h, sound o .message, subSym o P (3 * k), sound o .name, subSym o P (3 * k + 1)⟩ (.split k)
  | .eufCma s v p => .eufCma ⟨.f (.sym s), .f (.sym v), .f (.sym p), sound o .message, subSym o P (3 * k), sound o .name,
      subSym o P (3 * k + 1)⟩ (.split k)
  | .intCtxt e d x => .intCtxt ⟨.f (.sym e), .f (.sym d), .f (.sym x), sound o .message, subSym o P (3 * k), sound o .name,
      subSym o P (3 * k + 1), sound o .name, subSym o P (3 * k + 2)⟩
  | .unfolding r d => .unfolding r d

mutual
/-- Is there a use of `input`. -/
def usesInput : Fm PF → Bool
  | .var _ => false
  | .app f args => f == .input || usesInputs args
  | .quant _ _ b => usesInput b
def usesInputs : List (Fm PF) → Bool
  | [] => false
  | t :: l => usesInput t || usesInputs l
end

/-- See `Info`. Simplification: a step uses `in` if its texts mention an input. -/
def info (P : LProblem) : Info BF where
  dflt := isDefault P
  ta := isTA P
  insort := insort P
  taSort := isTermAlgebra
  evaluated := Gen.isEvaluated
  ins := (P.steps.filter fun s => usesInput s.message || usesInput s.condition).map fun s => s.vars.length

/-- The graph of `Protocol::new` (problem/protocol.rs:58): `none` is a panic, or fuel that runs out. Simplification: the code
makes it before `init` is put first. -/
def graph (o : Opt) (P : LProblem) : Option (PreGraph BF) :=
  ((Graph.new (kind P) o.fuel (P.steps.map gstep) (P.cells.map (gcell P))).bind id).bind fun g => g.preprocess o.fuel

/-- The fuel that `propagate` needs; the code has none. -/
def pushFuel (P : LProblem) : Nat := ((P.query :: P.assertions).map fun φ => (up φ).size).sum

/-- The problem whose file is written. -/
def toProb (o : Opt) (P : LProblem) : Option (Gen.Prob BF) :=
  (graph o P).map fun G =>
    { K := { E := cfg o P, cast := .f .nameToMsg, eqTa := .f .taEq, toBits := .f .evalMsg, steps := P.steps.map gstep,
             cells := P.cells.map (gcell P), G := G, tops := (topTerms P).map up, fuel := o.fuel, mfuel := o.fuel }
      I := info P
      P := protocol P
      ι := ofSym P
      builtin := isBuiltin
      isName := isName P
      dest := .dest
      crypto := P.crypto.zipIdx.map fun c => toAss o P c.2 c.1
      assertions := P.assertions.map up
      query := up P.query
      vampire := o.vampire
      define := o.define
      instances := o.instances
      fuel := pushFuel P }

end Bld
end CV
