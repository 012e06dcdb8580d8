import Verif.Subst
/-
Model of the symbols (formula/function/builtin.rs), of protocols (problem/protocol.rs,
problem/step.rs, problem/cell/**) and of the axiom generators
problem/general_assertions/order.rs, problem/crypto_assumptions/{unfolding,cell}.rs.
-/
namespace CV

/-- Connectives: models `booleans::Connective` / `booleans::Equality` / `IfThenElse`
(formula/function/inner/booleans.rs) and their term-algebra versions
(inner/term_algebra/connective.rs). -/
inductive Conn
  | tru | fls | and | or | not | imp | iff | eq | ite
  deriving DecidableEq, Repr

/-- Function symbols: models `InnerFunction` restricted to the builtins of
formula/function/builtin.rs:42-237 and the families created from a problem. Simplification: objects
(steps, cells, names, user functions) are numbered instead of being arena pointers. -/
inductive Sym
  | bool (c : Conn)
  | ta (c : Conn)
  | happens | lt | leq | gt | pred
  | step (n : Nat)
  | cond | msg | exec | input
  | evalMsg | evalCond
  | cell (n : Nat)
  | name (n : Nat)
  | cast
  | user (n : Nat)
  | userEv (n : Nat)
  deriving DecidableEq, Repr

abbrev SFm := Fm Sym

namespace SFm
/-- `AND.f` / `ands` / `&` (formula.rs:194-200, 288-290). -/
def ands (l : List SFm) : SFm := .app (.bool .and) l
/-- `OR.f` / `ors` / `|` (formula.rs:202-208, 292-294). -/
def ors (l : List SFm) : SFm := .app (.bool .or) l
/-- `!` (formula.rs:210-216). -/
def mnot (a : SFm) : SFm := .app (.bool .not) [a]
/-- `>>` (formula.rs:218-224). -/
def imp (a b : SFm) : SFm := .app (.bool .imp) [a, b]
/-- `meq` (formula.rs:281-286). -/
def meq (a b : SFm) : SFm := .app (.bool .eq) [a, b]
/-- `TRUE` (builtin.rs:67). -/
def tru : SFm := .app (.bool .tru) []
/-- `happens.f([t])`. -/
def happens (t : SFm) : SFm := .app .happens [t]
def lt (a b : SFm) : SFm := .app .lt [a, b]
def leq (a b : SFm) : SFm := .app .leq [a, b]
def gt (a b : SFm) : SFm := .app .gt [a, b]
def pred (t : SFm) : SFm := .app .pred [t]
/-- `Evaluator::eval` on a term of sort message (inner/evaluate.rs:54-76, 103-110). -/
def evalM (t : SFm) : SFm := .app .evalMsg [t]
/-- `Evaluator::eval` on a term of sort condition. -/
def evalC (t : SFm) : SFm := .app .evalCond [t]
end SFm
open SFm

/-- Models `InnerStep` (problem/step.rs:58-67). The identity of the step (an arena pointer) and of
its function symbol is `fid`. -/
structure Step where
  fid : Nat
  name : String
  vars : List Var
  condition : SFm
  message : SFm

/-- Models `Step::into_formula` (step.rs:290-292). -/
def Step.formula (s : Step) : SFm := .app (.step s.fid) (s.vars.map .var)

/-- Models `Step::occuring_variables` = `used_variables` (step.rs:181-183, 213-215): the variables
occurring in message or condition (duplicates do not matter here). Parameters that occur in
neither are not listed. -/
def Step.usedVars (s : Step) : List Var := s.message.vars ++ s.condition.vars

/-- Models `Assignement` (problem/cell/inner/assignement.rs:11-20). -/
structure Assign where
  step : Step
  args : List SFm
  content : SFm
  fresh : List Var

/-- Models `InnerMemoryCell` (problem/cell/inner.rs:13-24). -/
structure Cell where
  fid : Nat
  args : List Srt
  assigns : List Assign

/-- Models `OrderingKind` (problem/protocol/ordering.rs:20-23). -/
inductive OrderKind
  | lt (a b : SFm)
  | excl (a b : SFm)

/-- Models `Ordering` (ordering.rs:13-17). -/
structure Ordering where
  q : QKind
  vars : List Var
  kind : OrderKind
  guard : SFm

/-- Models `ast::OrderOperation` (parser/ast/ordering.rs). -/
inductive OrderOp
  | incompatible | lt | gt

/-- Models the end of `parse_order_with_bvars`
(parser/parser/parse_step_cell_asserts/order.rs:77-108): the parsed guard defaults to `true`, the
operator selects the kind. The already parsed terms are arguments. -/
def parseOrder (q : QKind) (vars : List Var) (guard : Option SFm) (op : OrderOp) (t1 t2 : SFm) :
    Ordering :=
  { q, vars, guard := guard.getD SFm.tru
    kind := match op with
      | .incompatible => .excl t1 t2
      | .lt => .lt t1 t2
      | .gt => .lt t2 t1 }

/-- Models `Protocol` (problem/protocol.rs:21-39); the dependency graph is modelled apart. -/
structure Protocol where
  steps : List Step
  cells : List Cell
  ordering : List Ordering

namespace Protocol

/-- Models `Protocol::new` (protocol.rs:50-76): put the first step named `init` at position 0 by a
swap; `none` is the panic "no init step !". -/
def new (steps : List Step) (cells : List Cell) (ordering : List Ordering) : Option Protocol :=
  (steps.findIdx? (fun s => s.name == "init")).bind fun i =>
    match steps[0]?, steps[i]? with
    | some a, some b => some ⟨(steps.set 0 b).set i a, cells, ordering⟩
    | _, _ => none

/-- Models `Protocol::init_step` (protocol.rs:154-156); `none` is the panic of `unwrap`. -/
def init (p : Protocol) : Option Step := p.steps.head?

/-- Models `Protocol::steps_without_init` (protocol.rs:166-169). -/
def stepsWithoutInit (p : Protocol) : List Step := p.steps.tail

/-- Models `Protocol::max_var` (protocol.rs:138-152). -/
def maxVar (p : Protocol) : Nat :=
  (((p.steps.flatMap Step.usedVars ++ p.cells.flatMap (fun c => c.assigns.flatMap Assign.fresh)).map
    Var.id).max?).getD 0 + 1

end Protocol

/-! ### order.rs -/

/-- Variables declared by `mforall!(t!i: step; ..)` (formula/formula/mod.rs:13-28). -/
def sv (i : Nat) : Var := ⟨i, .step⟩
/-- …used as a term. -/
def st (i : Nat) : SFm := .var (sv i)

/-- Models the general axioms of `order::generate` (order.rs:36-70) except the last one. -/
def orderAxioms (init : SFm) : List SFm := [
  .mkForall [sv 1, sv 2] (meq (ands [leq (st 1) (st 2), mnot (meq (st 1) (st 2))]) (lt (st 1) (st 2))),
  happens init,
  .mkForall [sv 1] (imp (happens (st 1)) (leq init (st 1))),
  .mkForall [sv 0] (imp (happens (st 0)) (ors [meq (st 0) init, happens (pred (st 0))])),
  .mkForall [sv 1, sv 2] (ors [ors [happens (st 1), happens (st 2)], meq (st 1) (st 2)]),
  .mkForall [sv 1, sv 2, sv 3]
    (imp (ands [leq (st 1) (st 2), leq (st 2) (st 3)]) (leq (st 1) (st 3))),
  .mkForall [sv 1, sv 2] (imp (ands [leq (st 1) (st 2), leq (st 2) (st 1)]) (meq (st 1) (st 2))),
  .mkForall [sv 1, sv 2] (meq (ands [happens (st 1), happens (st 2)])
    (ors [leq (st 1) (st 2), leq (st 2) (st 1)])),
  .mkForall [sv 0] (imp (happens (pred (st 0))) (leq (pred (st 0)) (st 0))),
  .mkForall [sv 0] (imp (happens (st 0)) (mnot (meq (pred (st 0)) (st 0)))),
  .mkForall [sv 0] (imp (happens (pred (st 0))) (happens (st 0))),
  .mkForall [sv 1, sv 2] (imp (ands [happens (pred (st 1)), happens (st 2)])
    (ors [leq (st 2) (pred (st 1)), leq (st 1) (st 2)]))]

/-- Models the last general axiom, about `gt` (order.rs:65-66). -/
def gtAxiom : SFm := .mkForall [sv 0, sv 1] (mnot (meq (gt (st 0) (st 1)) (lt (st 1) (st 0))))

/-- `v + n` (variable.rs:73-82). -/
def Var.shift (v : Var) (n : Nat) : Var := { v with id := v.id + n }

/-- Models one distinctness axiom (order.rs:78-102). -/
def stepDistinct (steps : List Step) (s : Step) : SFm :=
  let m := maxVar (s.vars.map Var.id)
  let conj := steps.map (fun s2 =>
    let vars2 := s2.vars.map (·.shift m)
    let t2 : SFm := .app (.step s2.fid) (vars2.map .var)
    if s.fid = s2.fid then
      .mkForall vars2 (imp (meq s.formula t2)
        (ands ((s.vars.zip vars2).map (fun p => meq (.var p.1) (.var p.2)))))
    else .mkForall vars2 (mnot (meq s.formula t2)))
  .mkForall s.vars (imp (happens s.formula) (ands conj))

/-- Models the exhaustiveness axiom (order.rs:106-117). -/
def stepExhaustive (steps : List Step) : SFm :=
  let m := maxVar ((steps.flatMap Step.vars).map Var.id)
  .mkForall [sv m] (imp (happens (st m))
    (ors (steps.map (fun s => .mkExists s.vars (meq (st m) s.formula)))))

/-- Models the user-ordering axioms (order.rs:120-133). -/
def orderingAxiom (o : Ordering) : SFm :=
  .quant o.q o.vars (imp o.guard (match o.kind with
    | .lt a b => imp (happens b) (leq a b)
    | .excl a b => mnot (ands [happens a, happens b])))

/-- Models `order::generate` (order.rs:18-134), comments and declarations erased. `none`: no init
step (cannot happen after `Protocol::new`). -/
def orderGenerate (p : Protocol) : Option (List SFm) :=
  p.init.map fun i =>
    orderAxioms i.formula ++ [gtAxiom] ++ p.steps.map (stepDistinct p.steps) ++
      [stepExhaustive p.steps] ++ p.ordering.map orderingAxiom

/-! ### unfolding.rs -/

/-- Models the recursive definition of exec (unfolding.rs:99-115). -/
def execRecursive (p : Protocol) : List SFm :=
  p.stepsWithoutInit.map fun s =>
    .mkForall s.vars (imp (happens s.formula)
      (meq (evalC (.app .exec [s.formula]))
        (ands [evalC (.app .cond [s.formula]), evalC (.app .exec [pred s.formula])])))

/-- Models the direct definition of exec (unfolding.rs:117-122). -/
def execDirect : SFm :=
  .mkForall [sv 1] (imp (happens (st 1))
    (meq (evalC (.app .exec [st 1]))
      (.mkForall [sv 2] (imp (leq (st 2) (st 1)) (evalC (.app .cond [st 1]))))))

/-- Models the message/condition unfolding (unfolding.rs:133-155). -/
def msgCondUnfold (p : Protocol) : List SFm :=
  p.steps.map fun s =>
    .mkForall s.vars (imp (happens s.formula)
      (ands [meq (evalC (.app .cond [s.formula])) (evalC s.condition),
        meq (evalM (.app .msg [s.formula])) (evalM s.message)]))

/-- Models `Unfolding::generate` (unfolding.rs:77-131) with
`use_recusive_def` / `use_direct_def` (65-75). -/
def unfoldingGenerate (recursive direct : Bool) (p : Protocol) : Option (List SFm) :=
  p.init.map fun i =>
    msgCondUnfold p ++ [evalC (.app .exec [i.formula])] ++
      (if recursive then execRecursive p else []) ++
      (if direct || !recursive then [execDirect] else [])

/-! ### cell.rs -/

/-- The matching condition of an assignment (cell.rs:71-77): cell parameters equal the
assignment's arguments and the time point is the step. `zip_eq` panics on a length mismatch,
which the parser does not rule out (`C58_arguments_unchecked`); here the extra elements are dropped. -/
def assignMatch (stepVar : Var) (vars : List Var) (a : Assign) : SFm :=
  ands ((vars.zip a.args).map (fun p => meq (.var p.1) p.2) ++
    [meq (.var stepVar) a.step.formula])

/-- Models `Cell::generate` for one memory cell (cell.rs:41-115). -/
def cellAxioms (maxVar : Nat) (c : Cell) : List SFm :=
  let stepVar : Var := ⟨maxVar, .step⟩
  let vars := sortsToVariables (maxVar + 1) c.args
  let nvars := vars ++ [stepVar]
  let call : SFm := .app (.cell c.fid) (nvars.map .var)
  let callPrev : SFm := .app (.cell c.fid) (vars.map .var ++ [pred (.var stepVar)])
  let bvars (a : Assign) := a.step.vars ++ a.fresh
  let positive := c.assigns.map (fun a =>
    Fm.mkForall (bvars a) (imp (assignMatch stepVar vars a) (meq call a.content)))
  let negative := c.assigns.map (fun a => Fm.mkForall (bvars a) (mnot (assignMatch stepVar vars a)))
  Fm.mkForall nvars (imp (ands negative) (meq (evalM call) (evalM callPrev))) ::
    positive.map (Fm.mkForall nvars)

/-- Models `Cell::generate` (cell.rs:23-118). -/
def cellGenerate (p : Protocol) : List SFm := p.cells.flatMap (cellAxioms p.maxVar)

end CV
