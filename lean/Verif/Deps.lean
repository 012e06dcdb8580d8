import Verif.Subst
import Verif.Iterators
/-
Model of problem/cell_dependancies/** (the graph of dependencies between memory cells and inputs) and of
the instantiation of steps (problem/step.rs:255-270). Paths are relative to
/repo/crates/cryptovampire/src.

Symbols are a type parameter `F`; what the code asks about a symbol through `Function::as_inner` is given
by a function `kind : F → Kind F`.
-/
namespace CV
namespace Dep
variable {F : Type}

/-- Models `InnerStep` (problem/step.rs:58-67): the symbol of the step, its parameters, its condition and
its message. -/
structure GStep (F : Type) where
  fn : F
  vars : List Var
  condition : Fm F
  message : Fm F

/-- Models `Assignement` (problem/cell/inner/assignement.rs:11-20). -/
structure GAssign (F : Type) where
  step : GStep F
  args : List (Fm F)
  content : Fm F
  fresh : List Var

/-- Models `InnerMemoryCell` (problem/cell/inner.rs:13-24). The identity of the cell, an arena pointer in
the code, is the number `fid`. -/
structure GCell (F : Type) where
  fid : Nat
  assigns : List (GAssign F)

/-- Models `step_macro::Macro` (formula/function/inner/term_algebra/step_macro.rs:14-21). -/
inductive Mac
  | cond | msg | exec | input
  deriving DecidableEq, Repr

/-- What the search code distinguishes about a symbol: models the cases of `InnerFunction` and
`TermAlgebra` it matches on (formula/function/inner/mod.rs, inner/term_algebra/mod.rs). `taq` is a
quantifier of the term algebra: its bound variables, its free variables (the parameters of the symbol) and
its contents (`get_content`, inner/term_algebra/quantifier.rs: one formula for `forall`/`exists`, three for
`find such that`). Everything else is `plain`. -/
inductive Kind (F : Type)
  | taq (bound free : List Var) (content : List (Fm F))
  | cell (c : GCell F)
  | mac (m : Mac)
  | step (s : GStep F)
  | plain

/-- Models `Step::apply_condition` (problem/step.rs:255-259): the variables replaced are the numbers
`1..=arity`. `none` is a panic. -/
def GStep.applyCondition (s : GStep F) (args : List (Fm F)) : Option (Fm F) :=
  s.condition.applySubstitution ((List.range s.vars.length).map (· + 1)) args

/-- Models `Step::apply_message` (problem/step.rs:261-265). -/
def GStep.applyMessage (s : GStep F) (args : List (Fm F)) : Option (Fm F) :=
  s.message.applySubstitution ((List.range s.vars.length).map (· + 1)) args

/-- Models `ToNode` (cell_dependancies/graph.rs:104-107). Simplification: the time points and arguments of
the calls are erased; nothing reads them. -/
inductive ToNode
  | input
  | cell (idx : Nat)
  deriving DecidableEq, Repr

/-- Models `ToNode::get_cell_idx(..).unwrap_or(input_idx)` (graph.rs:105-112, 180, 201). -/
def ToNode.idx (inputIdx : Nat) : ToNode → Nat
  | .input => inputIdx
  | .cell i => i

/-- Models `self.cells.iter().position(|g| g.cell == c)` (graph/process_functions.rs:128, graph.rs:170-172). -/
def position (cells : List (GCell F)) (c : GCell F) : Option Nat := cells.findIdx? (fun g => g.fid == c.fid)

/-- Models `ToNodeIterator::next` (graph/process_functions.rs:101-189), as the contents it pushes; the
result `none` stands for a panic (`unreachable!`, `assert!`, `unwrap`, or the one of `apply_substitution`). -/
def toNodeVisit (kind : F → Kind F) (cells : List (GCell F)) : Fm F → List (Content (Option ToNode) F Unit)
  | .var v => if v.sort = .step then [.result none] else []
  | .app f args =>
    match kind f with
    | .cell c => [.result (if args.isEmpty then none else (position cells c).map .cell)]
    | .mac m =>
      match args with
      | [.app g as] =>
        match kind g with
        | .step s =>
          match m with
          | .cond => match s.applyCondition as with
            | some c => [.next c ()]
            | none => [.result none]
          | .msg => match s.applyMessage as with
            | some c => [.next c ()]
            | none => [.result none]
          | .exec => [.result none]
          | .input => [.result (some .input)]
        | _ => [.result none]
      | _ => [.result none]
    | .step _ => [.result none]
    | _ => args.map (fun a => .next a ())
  | .quant _ _ b => [.next b ()]

def toNodeIter (kind : F → Kind F) (cells : List (GCell F)) : FIter (Option ToNode) F Unit Unit where
  visit := fun _ f _ => ((), toNodeVisit kind cells f)

/-- Models running the pile of a `ToNodeIterator` on one formula (process_functions.rs:81-104, 206-222).
Outer `none`: out of fuel; an element `none` of the list: a panic. -/
def toNodes (kind : F → Kind F) (cells : List (GCell F)) (fuel : Nat) (t : Fm F) : Option (List (Option ToNode)) :=
  runPile (toNodeIter kind cells) fuel () [.next t ()]

/-- Models `FromNode` (graph.rs:80-84); payloads that nothing reads are erased. -/
inductive FromNode
  | message | condition
  | cell (idx : Nat)
  deriving DecidableEq, Repr

/-- Models `Edges` (graph.rs:74-77). -/
structure Edge where
  src : FromNode
  dst : ToNode
  deriving DecidableEq, Repr

/-- What is scanned, in the order of `process_steps` (process_functions.rs:43-55, 63-76) then
`process_cell` (197-205): for every step its condition then its message, for every cell the contents of its
assignments. -/
def scanned (steps : List (GStep F)) (cells : List (GCell F)) : List (FromNode × Fm F) :=
  steps.flatMap (fun s => [(.condition, s.condition), (.message, s.message)]) ++
  cells.zipIdx.flatMap (fun p => p.1.assigns.map (fun a => (.cell p.2, a.content)))

/-- The edges found, in order; outer `none`: out of fuel; inner `none`: a panic. -/
def scanAll (kind : F → Kind F) (cells : List (GCell F)) (fuel : Nat) :
    List (FromNode × Fm F) → Option (Option (List Edge))
  | [] => some (some [])
  | (fr, t) :: l =>
    match toNodes kind cells fuel t, scanAll kind cells fuel l with
    | some ns, some (some es) =>
      if ns.all Option.isSome then some (some (ns.filterMap (fun n => n.map (fun n => ⟨fr, n⟩)) ++ es))
      else some none
    | some _, some none => some none
    | _, _ => none

/-- Models `DependancyGraph` (graph.rs:38-46): every cell with the indices of its edges, the index of the
first edge to an input, and the edges. -/
structure Graph (F : Type) where
  cells : List (GCell F × List Nat)
  inputStart : Nat
  edges : List Edge

/-- The end of `DependancyGraph::new` (graph.rs:120-163), from the edges found. The code pushes the edges to
inputs and the others on two vectors; here one list is split, which keeps both orders. The indices given
to a cell are computed before the edges to inputs are added (148-157). -/
def Graph.ofEdges (cells : List (GCell F)) (found : List Edge) : Graph F :=
  let es := found.filter (fun e => e.dst ≠ .input)
  let ies := found.filter (fun e => e.dst = .input)
  { cells := cells.zipIdx.map (fun p => (p.1,
      (es.zipIdx.filter (fun q => q.1.src = .cell p.2)).map Prod.snd))
    inputStart := es.length
    edges := es ++ ies }

/-- Models `DependancyGraph::new` (graph.rs:116-163). -/
def Graph.new (kind : F → Kind F) (fuel : Nat) (steps : List (GStep F)) (cells : List (GCell F)) :
    Option (Option (Graph F)) :=
  (scanAll kind cells fuel (scanned steps cells)).map (fun r => r.map (Graph.ofEdges cells))

/-- Models `MacroRef` (cell_dependancies/macro_ref.rs:4-8). -/
inductive MacroRef (F : Type)
  | input
  | exec
  | cell (c : GCell F)

/-- Models `Ancestors` (cell_dependancies/mod.rs:20-24). -/
structure Ancestors (F : Type) where
  input : Bool
  cells : List (GCell F)

/-- Models the start of `ancestors` (graph.rs:166-185): `none` is the error `MemoryCellNotFound`. -/
def Graph.seeds (g : Graph F) : MacroRef F → Option (List Nat)
  | .input => some [g.cells.length]
  | .cell c => (position (g.cells.map Prod.fst) c).map (fun i => [i])
  | .exec => some ((g.edges.filter (fun e => e.src = .condition)).map (fun e : Edge => e.dst.idx g.cells.length))

/-- Models the nodes pushed when a node is visited (graph.rs:187, 196-204); `none` is an index out of
bounds. -/
def Graph.next (g : Graph F) (i : Nat) : List (Option Nat) :=
  (match g.cells[i]? with
    | some c => c.2
    | none => (List.range (g.edges.length - g.inputStart)).map (· + g.inputStart)).map
    (fun ei => (g.edges[ei]?).map (fun e : Edge => e.dst.idx g.cells.length))

/-- Models the loop of `ancestors` (graph.rs:189-205). The head of the list is the end of the vector
`to_visit_idx`. Outer `none`: out of fuel; inner `none`: a panic. -/
def Graph.dfs (g : Graph F) : Nat → List Bool → List Nat → Option (Option (List Bool))
  | _, vis, [] => some (some vis)
  | 0, _, _ :: _ => none
  | n + 1, vis, i :: st =>
    match vis[i]? with
    | none => some none
    | some true => Graph.dfs g n vis st
    | some false =>
      let nx := g.next i
      if nx.all Option.isSome then Graph.dfs g n (vis.set i true) ((nx.filterMap id).reverse ++ st)
      else some none

/-- Models the end of `ancestors` (graph.rs:207-216). -/
def Graph.collect (g : Graph F) (vis : List Bool) : Ancestors F :=
  { input := vis.getLast?.getD false
    cells := (vis.dropLast.zipIdx.filter Prod.fst).filterMap (fun p => (g.cells[p.2]?).map Prod.fst) }

/-- The result of `ancestors`. -/
inductive AncRes (F : Type)
  | ok (a : Ancestors F)
  | notFound
  | panic
  | fuel

/-- Models `DependancyGraph::ancestors` (graph.rs:171-223). -/
def Graph.ancestors (g : Graph F) (fuel : Nat) (r : MacroRef F) : AncRes F :=
  match g.seeds r with
  | none => .notFound
  | some l =>
    match g.dfs fuel (List.replicate (g.cells.length + 1) false) l.reverse with
    | none => .fuel
    | some none => .panic
    | some (some vis) => .ok (g.collect vis)

/-- Models `PreprocessedDependancyGraph` (cell_dependancies/preprocessed_graph.rs:11-15); the hash map from
cells is a list, in which a later entry for the same cell wins. -/
structure PreGraph (F : Type) where
  input : Ancestors F
  exec : Ancestors F
  cells : List (GCell F × Ancestors F)

/-- Collecting the results for all cells (preprocessed_graph.rs:48-52). -/
def Graph.preCells (g : Graph F) (fuel : Nat) : List (GCell F) → Option (List (GCell F × Ancestors F))
  | [] => some []
  | c :: cs =>
    match g.ancestors fuel (.cell c), g.preCells fuel cs with
    | .ok a, some l => some ((c, a) :: l)
    | _, _ => none

/-- Models `From<&DependancyGraph> for PreprocessedDependancyGraph` (preprocessed_graph.rs:46-59); `none`: a
panic, or out of fuel. -/
def Graph.preprocess (g : Graph F) (fuel : Nat) : Option (PreGraph F) :=
  match g.preCells fuel (g.cells.map Prod.fst), g.ancestors fuel .input, g.ancestors fuel .exec with
  | some cells, .ok input, .ok exec => some ⟨input, exec, cells⟩
  | _, _, _ => none

/-- Models `PreprocessedDependancyGraph::ancestors` (preprocessed_graph.rs:33-39). -/
def PreGraph.ancestors (g : PreGraph F) : MacroRef F → Option (Ancestors F)
  | .exec => some g.exec
  | .input => some g.input
  | .cell c => (g.cells.reverse.find? (fun p => p.1.fid == c.fid)).map Prod.snd

end Dep
end CV
