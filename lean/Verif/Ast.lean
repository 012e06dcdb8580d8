/-
The surface syntax of CryptoVampire (parser/ast/*.rs), as produced by the pest grammar or by the Squirrel
front end. Paths are relative to /repo/crates/cryptovampire/src. Source locations and option lists on
terms are erased.
-/
namespace CV

/-- Models `Operation` (parser/ast/infix.rs:43-52). -/
inductive Op
  | hardEq | eq | neq | or | and | implies | iff
  deriving DecidableEq

/-- Models `OPERATION_LIST` (parser/ast/infix.rs:54-62). -/
def Op.list : List Op := [.hardEq, .eq, .neq, .or, .and, .implies, .iff]

/-- Models `Operation::as_str_alias` (parser/ast/infix.rs:102-112). -/
def Op.alias : Op → List String
  | .hardEq => ["===", "meq"]
  | .eq => ["=", "==", "eq"]
  | .neq => ["!=", "neq", "<>"]
  | .or => ["||", "or", "ors"]
  | .and => ["&&", "and", "ands"]
  | .implies => ["=>", "implies", "==>"]
  | .iff => ["<=>", "iff"]

/-- Models `Operation::get_operation` (parser/ast/infix.rs:81-86). -/
def Op.get (s : String) : Option Op := Op.list.find? fun o => o.alias.contains s

/-- Models `QuantifierKind` (parser/ast/quantifier.rs). -/
inductive AQ
  | all | ex
  deriving DecidableEq

/-- Models `VariableBinding` (parser/ast/bindings.rs): a variable name and a type name. -/
abbrev Bnd := String × String

/-- Models `ast::Term` / `InnerTerm` (parser/ast/term.rs:8-15, 73-82) and the node types it refers to:
`LetIn`, `IfThenElse`, `FindSuchThat`, `Quantifier`, `Application` (application.rs:6-18: `ConstVar` is
`cvar`, `Application` is `app`), `Infix`, and `AppMacro` (macros.rs: `Msg`, `Cond` carry an application
of a step, `Other` a macro name and arguments). -/
inductive Tm
  | letin (v : Bnd) (t₁ t₂ : Tm)
  | ite (c l r : Tm)
  | find (vars : List Bnd) (c l r : Tm)
  | quant (k : AQ) (vars : List Bnd) (body : Tm)
  | cvar (s : String)
  | app (f : String) (args : List Tm)
  | infx (op : Op) (terms : List Tm)
  | msg (step : String) (args : List Tm)
  | cond (step : String) (args : List Tm)
  | mac (name : String) (args : List Tm)

/-- Models `Applicable::f for &ast::Function` (parser/ast/ident.rs:134-152). -/
def Tm.mkApp (f : String) (args : List Tm) : Tm :=
  match Op.get f with
  | some op => .infx op args
  | none => .app f args

end CV
