import Verif.Load
import Lean.Elab.Command
/-
Model of the text format of protocol files: the grammar (/repo/crates/cryptovampire/grammar.pest), what the parser generator
`pest` makes of it, and the conversion of pest's pairs into the syntax tree (src/parser/ast/*.rs). Paths are relative to
/repo/crates/cryptovampire. Source locations are erased.
-/
set_option linter.unusedVariables false
namespace CV
namespace Txt2
open Prs (Out)

/-- Texts are lists of characters. -/
abbrev Tx := List Char

/-- `c!"abc"` stands for `['a', 'b', 'c']`. -/
macro:max "c!" s:str : term => do
  let cs := s.getString.toList.map fun c => (Lean.Syntax.mkCharLit c : Lean.TSyntax `char)
  let ts : Array (Lean.TSyntax `term) := (cs.map fun c => ⟨c.raw⟩).toArray
  `(([$ts,*] : List Char))

/-! ### Parsing expressions -/

/-- The rules of grammar.pest that leave a pair. The silent rules (`bracketed_term`, `inner_application`,
`inner_inner_application`, `inner_order`, `EOL`, `WHITESPACE`, `COMMENT`) leave none and are definitions below. `hard_eq` (line 29)
is never referred to by the grammar. -/
inductive Rule
  | file | content | ident | underscore | type_name | macro_name | function | variable | step_name
  | operation | hard_eq | eq | neq | or | and | implies | iff
  | typed_arguments | variable_binding | commun_base | term | inner_term | infix_term
  | application | macro_application | if_then_else | find_such_that | let_in
  | quantifier | quantifier_op | forall | exists
  | declaration | declare_type | declare_function | declare_function_args | declare_cell
  | step | assignement | assignements | assertion | assertion_inner | assertion_crypto | query | lemma
  | order | ordering_operation | order_incompatible | order_lt | order_gt | order_guard | mlet | options | EOI
  deriving DecidableEq

/-- The expressions of a pest grammar once the implicit whitespace is explicit: a text, a class of characters, sequence, ordered
choice, repetition, option, negative lookahead and a rule. -/
inductive G
  | lit (s : Tx)
  | chr (p : Char → Bool)
  | seq (a b : G)
  | alt (a b : G)
  | star (a : G)
  | opt (a : G)
  | neg (a : G)
  | call (r : Rule)

/-- Models `pest::iterators::Pair`: the rule, the text it matched (`as_str`) and the pairs inside (`into_inner`). -/
inductive Pair
  | node (r : Rule) (text : Tx) (kids : List Pair)

namespace Pair
/-- Models `as_rule`. -/
def rule : Pair → Rule | .node r _ _ => r
/-- Models `as_str`. -/
def text : Pair → Tx | .node _ s _ => s
/-- Models `into_inner`. -/
def kids : Pair → List Pair | .node _ _ k => k
end Pair

/-- What pest does with an expression on a text: `none` if it did not finish within `n` nested steps, `some none` if it fails,
and otherwise the pairs it leaves and the text that remains. A choice commits to the first alternative that succeeds, a
repetition takes as much as it can, and nothing is ever tried again after a success. -/
def run (gr : Rule → G) : Nat → G → Tx → Option (Option (List Pair × Tx))
  | 0, _, _ => none
  | _ + 1, .lit s, t => some (if s.isPrefixOf t then some ([], t.drop s.length) else none)
  | _ + 1, .chr p, t =>
    match t with
    | [] => some none
    | c :: t' => some (if p c then some ([], t') else none)
  | n + 1, .seq a b, t =>
    match run gr n a t with
    | none => none
    | some none => some none
    | some (some (p, t')) =>
      match run gr n b t' with
      | none => none
      | some none => some none
      | some (some (q, t'')) => some (some (p ++ q, t''))
  | n + 1, .alt a b, t =>
    match run gr n a t with
    | none => none
    | some none => run gr n b t
    | some (some r) => some (some r)
  | n + 1, .star a, t =>
    match run gr n a t with
    | none => none
    | some none => some (some ([], t))
    | some (some (p, t')) =>
      match run gr n (.star a) t' with
      | none => none
      | some none => some none
      | some (some (q, t'')) => some (some (p ++ q, t''))
  | n + 1, .opt a, t =>
    match run gr n a t with
    | none => none
    | some none => some (some ([], t))
    | some (some r) => some (some r)
  | n + 1, .neg a, t =>
    match run gr n a t with
    | none => none
    | some none => some (some ([], t))
    | some (some _) => some none
  | n + 1, .call r, t =>
    match run gr n (gr r) t with
    | none => none
    | some none => some none
    | some (some (p, t')) => some (some ([.node r (t.take (t.length - t'.length)) p], t'))

/-! ### Implicit whitespace -/

/-- Models `WHITESPACE` (grammar.pest:7). `"\r\n"` is read as two blanks instead of one, which no pair shows. -/
def isWs (c : Char) : Bool := c == ' ' || c == '\t' || c == '\n' || c == '\r'

/-- Models `c_like_comments` and `ml_like_comments` (grammar.pest:9-10): inside `COMMENT` pest inserts no whitespace. -/
def comment (opn cls : Tx) : G := .seq (.lit opn) (.seq (.star (.seq (.neg (.lit cls)) (.chr fun _ => true))) (.lit cls))

/-- Models `COMMENT` (grammar.pest:8). -/
def commentG : G := .alt (comment c!"/*" c!"*/") (comment c!"(*" c!"*)")

/-- What pest inserts between the parts of the rules that are neither `@` nor `$`: `WHITESPACE* ~ (COMMENT ~ WHITESPACE*)*`. -/
def skipG : G := .seq (.star (.chr isWs)) (.star (.seq commentG (.star (.chr isWs))))

/-- `a ~ b` in a rule that is neither `@` nor `$`. -/
def G.then (a b : G) : G := .seq a (.seq skipG b)
@[inherit_doc] infixr:60 " ~~ " => G.then

/-- `a*` in a rule that is neither `@` nor `$`. -/
def many (a : G) : G := .opt (.seq a (.star (.seq skipG a)))

/-- `a+` in a rule that is neither `@` nor `$`: pest rewrites it to `a ~ a*`. -/
def many1 (a : G) : G := a ~~ many a

/-- `a | b | …`. -/
def choice : List G → G
  | [] => .neg (.lit [])
  | [a] => a
  | a :: b :: l => .alt a (choice (b :: l))

/-! ### The grammar -/

section
variable (U : Char → Bool)

/-- The builtin class `LETTER`: the ASCII letters, and outside of ASCII the Unicode letters, which `U` tells; the quantifiers are
not letters (they are mathematical symbols). -/
def letter (c : Char) : Bool := if c.toNat < 128 then c.isAlpha else U c && c != '∀' && c != '∃'

/-- The characters of an identifier after the first one (grammar.pest:13). -/
def idc (c : Char) : Bool := c.isAlphanum || letter U c || c == '_' || c == '-' || c == '\''

/-- Models `bracketed_term` (grammar.pest:43). -/
def bracketed : G := .lit c!"{" ~~ .call .term ~~ .lit c!"}"

/-- `("(" ~ (a ~ ",")* ~ a? ~ ")")`. -/
def listOf (opn : Tx) (a : G) (cls : Tx) : G := .lit opn ~~ (many (a ~~ .lit c!",") ~~ .opt a) ~~ .lit cls

/-- Models `inner_application` (grammar.pest:49-50). -/
def innerApp : G := .alt (listOf c!"(" (.call .term) c!")") (listOf c!"[" (.call .term) c!"]")

/-- Models `inner_order` (grammar.pest:89). -/
def innerOrder : G := .opt (.call .order_guard) ~~ .call .term ~~ .call .ordering_operation ~~ .call .term

/-- Models grammar.pest, rule by rule. `SOI` is the empty text: the rule `file` is only called at the start. -/
def gram : Rule → G
  | .file => .lit [] ~~ (many1 (.call .content ~~ .opt (.lit c!";"))) ~~ .call .EOI
  | .EOI => .neg (.chr fun _ => true)
  | .content => choice [.call .declaration, .call .step, .call .assertion, .call .order, .call .query, .call .lemma,
      .call .assertion_crypto, .call .mlet]
  | .ident => .seq (.chr (letter U)) (.star (.chr (idc U)))
  | .underscore => .lit c!"_"
  | .type_name => .call .ident
  | .macro_name => .seq (.call .ident) (.lit c!"!")
  | .function => .call .ident
  | .variable => .seq (.opt (.call .underscore)) (.call .ident)
  | .step_name => .call .ident
  | .operation => choice [.call .eq, .call .neq, .call .or, .call .and, .call .implies, .call .iff]
  | .hard_eq => .lit c!"==="
  | .eq => .lit c!"=="
  | .neq => .alt (.lit c!"!=") (.lit c!"<>")
  | .or => .lit c!"||"
  | .and => .lit c!"&&"
  | .implies => .lit c!"=>"
  | .iff => .lit c!"<=>"
  | .typed_arguments => .opt (listOf c!"(" (.call .variable_binding) c!")")
  | .variable_binding => .call .variable ~~ .lit c!":" ~~ .call .type_name
  | .commun_base => choice [.call .let_in, .call .if_then_else, .call .find_such_that, .call .quantifier,
      .call .macro_application, .call .application]
  | .term => .call .inner_term
  | .inner_term => .alt (.call .commun_base) (.call .infix_term)
  | .infix_term => .lit c!"(" ~~ .call .term ~~ many1 (.call .operation ~~ .call .term) ~~ .lit c!")"
  | .application => .alt (.call .function) (.call .variable) ~~ .opt innerApp
  | .macro_application => .call .macro_name ~~ .opt innerApp
  | .if_then_else => .lit c!"if" ~~ .call .term ~~ bracketed ~~ .lit c!"else" ~~ bracketed
  | .find_such_that => .lit c!"try" ~~ .lit c!"find" ~~ .call .typed_arguments ~~ .lit c!"such" ~~ .lit c!"that" ~~ bracketed
      ~~ .lit c!"then" ~~ bracketed ~~ .lit c!"else" ~~ bracketed
  | .let_in => .lit c!"let" ~~ .call .variable_binding ~~ .lit c!"=" ~~ .call .term ~~ .lit c!"in" ~~ .call .term
  | .quantifier => .call .quantifier_op ~~ .call .typed_arguments ~~ bracketed
  | .quantifier_op => .alt (.call .exists) (.call .forall)
  | .forall => .alt (.lit c!"forall") (.lit c!"∀")
  | .exists => .alt (.lit c!"exists") (.lit c!"∃")
  | .declaration => choice [.call .declare_type, .call .declare_function, .call .declare_cell]
  | .declare_type => .lit c!"type" ~~ .call .type_name ~~ .opt (.call .options)
  | .declare_function => .lit c!"fun" ~~ .call .function ~~ .call .declare_function_args ~~ .lit c!":" ~~ .call .type_name
      ~~ .opt (.call .options)
  | .declare_function_args => .opt (listOf c!"(" (.call .type_name) c!")")
  | .declare_cell => .lit c!"cell" ~~ .call .function ~~ .call .declare_function_args ~~ .lit c!":" ~~ .call .type_name
      ~~ .opt (.call .options)
  | .step => .lit c!"step" ~~ .call .step_name ~~ .call .typed_arguments ~~ bracketed ~~ bracketed
      ~~ .opt (.call .assignements) ~~ .opt (.call .options)
  | .assignement => .call .typed_arguments ~~ .call .application ~~ .lit c!"<-" ~~ .call .term
  | .assignements => listOf c!"{" (.call .assignement) c!"}"
  | .assertion => .lit c!"assert" ~~ .call .assertion_inner
  | .assertion_inner => .call .term ~~ .opt (.call .options)
  | .assertion_crypto => .lit c!"assert-crypto" ~~ .call .ident ~~ many (.call .function) ~~ .opt (.call .options)
  | .query => .lit c!"query" ~~ .call .assertion_inner
  | .lemma => .lit c!"lemma" ~~ .call .assertion_inner
  | .order => .lit c!"order" ~~ .call .quantifier_op ~~ .call .typed_arguments
      ~~ .alt innerOrder (.lit c!"{" ~~ innerOrder ~~ .lit c!"}") ~~ .opt (.call .options)
  | .ordering_operation => choice [.call .order_incompatible, .call .order_lt, .call .order_gt]
  | .order_incompatible => .lit c!"<>"
  | .order_lt => .lit c!"<"
  | .order_gt => .lit c!">"
  | .order_guard => .call .term ~~ .call .implies
  | .mlet => .lit c!"let" ~~ .call .macro_name ~~ .call .typed_arguments ~~ .lit c!"=" ~~ .call .term ~~ .opt (.call .options)
  | .options => .lit c!"[" ~~ many (.call .ident) ~~ .lit c!"]"
end

/-! ### Conversion of the pairs -/

/-- Models `Assert` (src/parser/ast/assertions.rs:8-13). -/
inductive AKind
  | assert | query | lemma
  deriving DecidableEq

/-- Models `Application` (src/parser/ast/application.rs:6-18): a name alone, or a function with arguments. -/
inductive Appl
  | const (s : String)
  | app (f : String) (args : List Tm)

/-- Models `Assignement` (src/parser/ast/cell.rs:78-85). -/
structure Asg where
  fresh : Option (List Bnd)
  cell : Appl
  term : Tm

/-- Models `AST` (src/parser/ast/main.rs:61-69) and the types of its cases, with the options. -/
inductive Stm
  | type (name : String) (opts : List String)
  | func (name : String) (args : List String) (sort : String) (opts : List String)
  | cell (name : String) (args : List String) (sort : String) (opts : List String)
  | step (name : String) (args : List Bnd) (cond msg : Tm) (asgs : Option (List Asg)) (opts : List String)
  | order (q : AQ) (args : List Bnd) (guard : Option Tm) (t1 : Tm) (op : OrderOp) (t2 : Tm) (opts : List String)
  | crypto (name : String) (fns : List String) (opts : List String)
  | assert (k : AKind) (t : Tm) (opts : List String)
  | mac (name : String) (args : List Bnd) (t : Tm) (opts : List String)

section
-- `dbg` tells whether the build has debug assertions.
variable (dbg : Bool)

/-- Models `debug_rule!` (src/parser/ast/mod.rs:43-53): in a debug build, the wrong rule is a panic; in a release build nothing is
checked. -/
def chk {α : Type} (p : Pair) (rs : List Rule) (k : Out α) : Out α := if dbg && !rs.contains p.rule then .panic else k

/-- Models `Ident::try_from` (src/parser/ast/ident.rs:19-21). -/
def cIdent (p : Pair) : Out String := chk dbg p [.ident] (.ok (String.ofList p.text))

/-- Models the conversions to `TypeName`, `MacroName`, `Function` and `StepName` (src/parser/ast/ident.rs:50-52, 79-81, 108-110,
183-185): the first pair inside, which has to be there. -/
def cName (r : Rule) (p : Pair) : Out String :=
  chk dbg p [r] (match p.kids with | [] => .panic | k :: _ => cIdent dbg k)

/-- Models `Variable::try_from` (src/parser/ast/ident.rs:158-160). -/
def cVar (p : Pair) : Out String := chk dbg p [.variable] (.ok (String.ofList p.text))

/-- `map(TryInto::try_into).collect()`: in order, up to the first error. -/
def cAll {α : Type} (f : Pair → Out α) : List Pair → Out (List α)
  | [] => .ok []
  | p :: l => (f p).bind fun a => (cAll f l).bind fun r => .ok (a :: r)

/-- Models `VariableBinding::try_from` (src/parser/ast/bindings.rs:60-64): `destruct_rule!` of exactly two. -/
def cBnd (p : Pair) : Out Bnd :=
  chk dbg p [.variable_binding] (match p.kids with
    | [v, t] => (cVar dbg v).bind fun v => (cName dbg .type_name t).bind fun t => .ok (v, t)
    | _ => .err)

/-- Models `TypedArgument::try_from` (src/parser/ast/bindings.rs:14-18). -/
def cBnds (p : Pair) : Out (List Bnd) := chk dbg p [.typed_arguments] (cAll (cBnd dbg) p.kids)

/-- The conversion of a rule that is a choice between constants (`boiler_plate!(l …)`, src/parser/ast/mod.rs:72-97): exactly one pair
inside, of a known rule. -/
def cOne {α : Type} (r : Rule) (f : Rule → Option α) (p : Pair) : Out α :=
  chk dbg p [r] (match p.kids with
    | [] => .panic
    | [k] => (match f k.rule with | some a => .ok a | none => .panic)
    | _ => .err)

/-- Models `Operation::try_from` (src/parser/ast/infix.rs:70-78). -/
def cOp : Pair → Out Op := cOne dbg .operation fun
  | .hard_eq => some .hardEq | .eq => some .eq | .neq => some .neq | .or => some .or | .and => some .and
  | .implies => some .implies | .iff => some .iff | _ => none

/-- Models `QuantifierKind::try_from` (src/parser/ast/quantifier.rs:44-47). -/
def cQuant : Pair → Out AQ := cOne dbg .quantifier_op fun
  | .forall => some .all | .exists => some .ex | _ => none

/-- Models `OrderOperation::try_from` (src/parser/ast/ordering.rs:76-80). -/
def cOrdOp : Pair → Out OrderOp := cOne dbg .ordering_operation fun
  | .order_incompatible => some .incompatible | .order_lt => some .lt | .order_gt => some .gt | _ => none

/-- Models the `match` on the name of a macro (src/parser/ast/macros.rs:80-88). -/
inductive MKind
  | msg | cond | other

/-- The names `msg` and `cond` are special. -/
def mkind (s : String) : MKind :=
  if s.toList = c!"msg" then .msg else if s.toList = c!"cond" then .cond else .other

/-- The result of `AppMacro::try_from` for `msg!` and `cond!`, whose application becomes a name and arguments. -/
def Appl.toTm (mk : String → List Tm → Tm) : Appl → Tm
  | .const s => mk s []
  | .app f args => mk f args

/-- `InnerTerm::Application`. -/
def Appl.tm : Appl → Tm
  | .const s => .cvar s
  | .app f args => .app f args

mutual
/-- Models `Term::try_from` and `InnerTerm::try_from` (src/parser/ast/term.rs:17-21, 85-122). -/
def cTerm : Pair → Out Tm
  | .node r _ ks =>
    if dbg && r != .term then .panic else
    match ks with
    | [.node r₁ _ ks₁] =>
      if dbg && r₁ != .inner_term then .panic else
      (match ks₁ with
      | [.node .infix_term _ ks₂] => cInfix ks₂
      | [.node .commun_base _ ks₂] =>
        (match ks₂ with
        | [.node .let_in _ ks₃] => cLet ks₃
        | [.node .if_then_else _ ks₃] => cIf ks₃
        | [.node .find_such_that _ ks₃] => cFind ks₃
        | [.node .quantifier _ ks₃] => cQuantifier ks₃
        | [.node .application _ ks₃] => (cAppl ks₃).bind fun a => .ok a.tm
        | [.node .macro_application _ ks₃] => cMacro ks₃
        | [_] => .panic
        | _ => .err)
      | [_] => .panic
      | _ => .err)
    | _ => .err
/-- Models `LetIn::try_from` (src/parser/ast/let_in.rs:15-19) on the pairs inside. -/
def cLet : List Pair → Out Tm
  | [v, t1, t2] => (cBnd dbg v).bind fun v => (cTerm t1).bind fun t1 => (cTerm t2).bind fun t2 => .ok (.letin v t1 t2)
  | _ => .err
/-- Models `IfThenElse::try_from` (src/parser/ast/if_then_else.rs:15-19). -/
def cIf : List Pair → Out Tm
  | [c, l, r] => (cTerm c).bind fun c => (cTerm l).bind fun l => (cTerm r).bind fun r => .ok (.ite c l r)
  | _ => .err
/-- Models `FindSuchThat::try_from` (src/parser/ast/find_such_that.rs:17-21). -/
def cFind : List Pair → Out Tm
  | [v, c, l, r] => (cBnds dbg v).bind fun v => (cTerm c).bind fun c => (cTerm l).bind fun l => (cTerm r).bind fun r =>
      .ok (.find v c l r)
  | _ => .err
/-- Models `Quantifier::try_from` (src/parser/ast/quantifier.rs:16-20). -/
def cQuantifier : List Pair → Out Tm
  | [k, v, c] => (cQuant dbg k).bind fun k => (cBnds dbg v).bind fun v => (cTerm c).bind fun c => .ok (.quant k v c)
  | _ => .err
/-- Models `Application::try_from` (src/parser/ast/application.rs:58-69): the arguments are converted before the name is, but an
error of the name is reported first. -/
def cAppl : List Pair → Out Appl
  | [] => .panic
  | [name] => .ok (.const (String.ofList name.text))
  | name :: a :: args =>
    match cTerms (a :: args) with
    | .panic => .panic
    | .loop => .loop
    | .err => (cName dbg .function name).bind fun _ => .err
    | .ok args => (cName dbg .function name).bind fun f => .ok (.app f args)
/-- Models `Infix::try_from` (src/parser/ast/infix.rs:16-34). -/
def cInfix : List Pair → Out Tm
  | t1 :: op :: t2 :: l => (cTerm t1).bind fun t1 => (cOp dbg op).bind fun o => (cTerm t2).bind fun t2 =>
      (cInfixRest o l).bind fun l => .ok (.infx o (t1 :: t2 :: l))
  | [t1] => (cTerm t1).bind fun _ => .panic
  | [t1, op] => (cTerm t1).bind fun _ => (cOp dbg op).bind fun _ => .panic
  | [] => .panic
/-- The loop of `Infix::try_from`: all the operators have to be the first one. -/
def cInfixRest (o : Op) : List Pair → Out (List Tm)
  | [] => .ok []
  | [op] => (cOp dbg op).bind fun o' => if o = o' then .panic else .err
  | op :: t :: l => (cOp dbg op).bind fun o' => if o = o' then
      (cTerm t).bind fun t => (cInfixRest o l).bind fun l => .ok (t :: l) else .err
/-- Models `AppMacro::try_from` and `from_term_to_application` (src/parser/ast/macros.rs:62-93): the pairs inside the argument of
`msg!` and `cond!` are opened three times, whatever they are, in a release build. Further arguments are ignored. -/
def cMacro : List Pair → Out Tm
  | [] => .panic
  | name :: args =>
    (cName dbg .macro_name name).bind fun n =>
      match mkind n with
      | .other => (cTerms args).bind fun a => .ok (.mac n a)
      | k =>
        let mk := match k with | .msg => Tm.msg | _ => Tm.cond
        match args with
        | [] => .panic
        | .node r₁ _ ks₁ :: _ => if dbg && r₁ != .term then .panic else
          match ks₁ with
          | [] => .panic
          | .node r₂ _ ks₂ :: _ => if dbg && r₂ != .inner_term then .panic else
            match ks₂ with
            | [] => .panic
            | .node r₃ _ ks₃ :: _ => if dbg && r₃ != .commun_base then .panic else
              match ks₃ with
              | [] => .panic
              | .node r₄ _ ks₄ :: _ => if dbg && r₄ != .application then .panic else
                (cAppl ks₄).bind fun a => .ok (a.toTm mk)
/-- `map(TryInto::try_into).collect()` on terms. -/
def cTerms : List Pair → Out (List Tm)
  | [] => .ok []
  | p :: l => (cTerm p).bind fun t => (cTerms l).bind fun r => .ok (t :: r)
end

/-- Models `Application::try_from` (src/parser/ast/application.rs:58-69). -/
def cApplication (p : Pair) : Out Appl := chk dbg p [.application] (cAppl dbg p.kids)

/-- Models `Options::try_from` (src/parser/ast/options.rs:40-44). -/
def cOptions (p : Pair) : Out (List String) := chk dbg p [.options] (cAll (cIdent dbg) p.kids)

/-- The end of `destruct_rule!` with `?options` (src/parser/ast/mod.rs:158-170): at most one more pair. -/
def cOpts : List Pair → Out (List String)
  | [] => .ok []
  | [o] => cOptions dbg o
  | o :: _ :: _ => (cOptions dbg o).bind fun _ => .err

/-- Models `DeclareFunctionArgs::try_from` (src/parser/ast/functions.rs:83-87). -/
def cFunArgs (p : Pair) : Out (List String) :=
  chk dbg p [.declare_function_args] (cAll (cName dbg .type_name) p.kids)

/-- Models `DeclareFunction::try_from` and `DeclareCell::try_from` (src/parser/ast/functions.rs:16-20, cell.rs:17-21). -/
def cFun (r : Rule) (mk : String → List String → String → List String → Stm) (p : Pair) : Out Stm :=
  chk dbg p [r] (match p.kids with
    | n :: a :: s :: l => (cName dbg .function n).bind fun n => (cFunArgs dbg a).bind fun a =>
        (cName dbg .type_name s).bind fun s => (cOpts dbg l).bind fun o => .ok (mk n a s o)
    | _ => .err)

/-- Models `DeclareType::try_from` (src/parser/ast/sorts.rs:15-19). -/
def cType (p : Pair) : Out Stm :=
  chk dbg p [.declare_type] (match p.kids with
    | n :: l => (cName dbg .type_name n).bind fun n => (cOpts dbg l).bind fun o => .ok (.type n o)
    | _ => .err)

/-- The frame of `boiler_plate!(l …)` (src/parser/ast/mod.rs:72-97): exactly one pair inside. -/
def cInside {α : Type} (rs : List Rule) (f : Pair → Out α) (p : Pair) : Out α :=
  chk dbg p rs (match p.kids with | [] => .panic | [k] => f k | _ => .err)

/-- Models `Declaration::try_from` (src/parser/ast/main.rs:92-96). -/
def cDeclaration : Pair → Out Stm := cInside dbg [.declaration] fun k =>
  match k.rule with
  | .declare_type => cType dbg k
  | .declare_function => cFun dbg .declare_function .func k
  | .declare_cell => cFun dbg .declare_cell .cell k
  | _ => .panic

/-- Models `Assignement::try_from` (src/parser/ast/cell.rs:87-113). -/
def cAsg (p : Pair) : Out Asg :=
  chk dbg p [.assignement] (match p.kids with
    | [c, t] => (cApplication dbg c).bind fun c => (cTerm dbg t).bind fun t => .ok ⟨none, c, t⟩
    | [v, c, t] => (cApplication dbg c).bind fun c => (cTerm dbg t).bind fun t => (cBnds dbg v).bind fun v =>
        .ok ⟨some v, c, t⟩
    | _ => .panic)

/-- Models `Assignements::try_from` (src/parser/ast/cell.rs:56-60). -/
def cAsgs (p : Pair) : Out (List Asg) := chk dbg p [.assignements] (cAll (cAsg dbg) p.kids)

/-- The last two pairs of a step (src/parser/ast/step.rs:57-90): the fifth pair is converted to assignments; if this is an error, it is
converted to options and the sixth is dropped; otherwise the sixth is converted to options. -/
def cStepEnd (r5 r6 : Option Pair) : Out (Option (List Asg) × List String) :=
  let opts (r : Option Pair) : Out (List String) := match r with | none => .ok [] | some r => cOptions dbg r
  match r5 with
  | none => (opts r6).bind fun o => .ok (none, o)
  | some a =>
    match cAsgs dbg a with
    | .panic => .panic
    | .loop => .loop
    | .err => (opts (some a)).bind fun o => .ok (none, o)
    | .ok as => (opts r6).bind fun o => .ok (some as, o)

/-- Models `Step::try_from` (src/parser/ast/step.rs:48-97). -/
def cStep (p : Pair) : Out Stm :=
  chk dbg p [.step] (match p.kids with
    | n :: a :: c :: m :: l =>
      (cName dbg .step_name n).bind fun n => (cBnds dbg a).bind fun a => (cTerm dbg c).bind fun c => (cTerm dbg m).bind fun m =>
        (cStepEnd dbg l[0]? l[1]?).bind fun e =>
          if l.length ≤ 2 then .ok (.step n a c m e.1 e.2) else .err
    | _ => .panic)

/-- Models `Assertion::try_from` (src/parser/ast/assertions.rs:52-56). -/
def cAssertion (p : Pair) : Out (Tm × List String) :=
  chk dbg p [.assertion_inner] (match p.kids with
    | t :: l => (cTerm dbg t).bind fun t => (cOpts dbg l).bind fun o => .ok (t, o)
    | _ => .err)

/-- Models `Assert::try_from` (src/parser/ast/assertions.rs:15-28). -/
def cAssert (p : Pair) : Out Stm :=
  chk dbg p [.assertion, .query, .lemma] (match p.kids with
    | [] => .panic
    | k :: _ =>
      match p.rule with
      | .assertion => (cAssertion dbg k).bind fun a => .ok (.assert .assert a.1 a.2)
      | .query => (cAssertion dbg k).bind fun a => .ok (.assert .query a.1 a.2)
      | .lemma => (cAssertion dbg k).bind fun a => .ok (.assert .lemma a.1 a.2)
      | _ => .err)

/-- Models `AssertCrypto::try_from` (src/parser/ast/assertions.rs:77-99): the last pair is taken for the options if it is some. -/
def cCrypto (p : Pair) : Out Stm :=
  chk dbg p [.assertion_crypto] (match p.kids with
    | [] => .panic
    | n :: l =>
      (cIdent dbg n).bind fun n =>
        match l.getLast? with
        | some o =>
          if o.rule = .options then
            (cOptions dbg o).bind fun o => (cAll (cName dbg .function) l.dropLast).bind fun f => .ok (.crypto n f o)
          else (cAll (cName dbg .function) l).bind fun f => .ok (.crypto n f [])
        | none => .ok (.crypto n [] []))

/-- Models `Order::try_from` (src/parser/ast/ordering.rs:20-48). -/
def cOrder (p : Pair) : Out Stm :=
  chk dbg p [.order] (match p.kids with
    | q :: a :: n :: l =>
      (cQuant dbg q).bind fun q => (cBnds dbg a).bind fun a =>
        let k (g : Option Tm) : List Pair → Out Stm
          | t1 :: op :: t2 :: l => (cTerm dbg t1).bind fun t1 => (cOrdOp dbg op).bind fun op => (cTerm dbg t2).bind fun t2 =>
              (cOpts dbg l).bind fun o => .ok (.order q a g t1 op t2 o)
          | _ => .panic
        if n.rule = .order_guard then
          (match n.kids with
          | [] => .panic
          | g :: _ => (cTerm dbg g).bind fun g => k (some g) l)
        else k none (n :: l)
    | _ => .panic)

/-- Models `Macro::try_from` (src/parser/ast/macros.rs:19-23). -/
def cMac (p : Pair) : Out Stm :=
  chk dbg p [.mlet] (match p.kids with
    | n :: a :: t :: l => (cName dbg .macro_name n).bind fun n => (cBnds dbg a).bind fun a => (cTerm dbg t).bind fun t =>
        (cOpts dbg l).bind fun o => .ok (.mac n a t o)
    | _ => .err)

/-- Models `AST::try_from` (src/parser/ast/main.rs:70-77). -/
def cStm : Pair → Out Stm := cInside dbg [.content] fun k =>
  match k.rule with
  | .declaration => cDeclaration dbg k
  | .step => cStep dbg k
  | .order => cOrder dbg k
  | .assertion_crypto => cCrypto dbg k
  | .assertion => cAssert dbg k
  | .query => cAssert dbg k
  | .lemma => cAssert dbg k
  | .mlet => cMac dbg k
  | _ => .panic

/-- Models `ASTList::try_from(&str)` (src/parser/ast/main.rs:22-46): pest on the rule `file`, then the pairs of the rule `content`.
`none` if `n` nested steps are not enough. -/
def readFile (U : Char → Bool) (n : Nat) (t : Tx) : Option (Out (List Stm)) :=
  match run (gram U) n (.call .file) t with
  | none => none
  | some none => some .err
  | some (some (ps, _)) =>
    match ps with
    | [] => some .panic
    | p :: _ => some (cAll (cStm dbg) (p.kids.filter fun p => p.rule = .content))
end

end Txt2
end CV
