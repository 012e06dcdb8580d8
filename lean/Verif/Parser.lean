/-
Model of the elaboration of surface terms into formulas: parser/parser/parsable_trait.rs, with the parts of
formula/sort/sort_proxy.rs, formula/function/signature and parser/parser/parsing_environement.rs it uses.
Paths are relative to /repo/crates/cryptovampire/src. Source locations, logging and error texts are erased.
-/
import Verif.Formula
import Verif.Subst
import Verif.Ast

namespace CV
namespace Prs

/-- Models `Realm` (environement/traits.rs). -/
inductive Realm
  | sym | ev
  deriving DecidableEq, Repr

/-- Models `Sort::maybe_evaluated_sort` (formula/sort/mod.rs:92-98, 240-242; formula/sort/inner.rs). The parser only
creates index sorts (parser/parser/declare.rs:56-57), so user-evaluatable sorts do not occur. -/
def evaluated : Srt → Option Srt
  | .condition => some .bool
  | .message => some .bitstring
  | _ => none

/-- Models `Sort::realm` (formula/sort/mod.rs:274-280). -/
def realmOf : Srt → Option Realm
  | .bool | .bitstring => some .ev
  | .condition | .message => some .sym
  | _ => none

/-- Models `Sort::is_evaluatable` (formula/sort/mod.rs:161-168). -/
def isEvaluatable : Srt → Bool
  | .condition | .message => true
  | _ => false

/-- Models `Sort::eq_realm` (formula/sort/mod.rs:257-271). -/
def eqRealm (r : Realm) (a b : Srt) : Bool :=
  a == b || match r with
    | .sym => false
    | .ev => (isEvaluatable a || isEvaluatable b) && (evaluated a == some b || evaluated b == some a)

/-- The function symbols the elaborator can produce (formula/function/builtin.rs; `sym` is any function of the
environment; `taq` is a function created for a quantifier or a `find`, numbered by creation order). -/
inductive PF
  | tru | fls | and | or | not | imp | eq
  | taTrue | taFalse | taAnd | taOr | taNot | taImp | taEq
  | ite | taIte
  | evalMsg | evalCond
  | nameToMsg | input
  | sym (name : String)
  | taq (id : Nat)
  deriving DecidableEq, Repr

/-- Models `TermAlgebra::Quantifier` (formula/function/inner/term_algebra/quantifier.rs:20-40), the content of a
function created by the elaborator. -/
inductive TAQ
  | quant (q : QKind) (bound free : List Var) (body : Fm PF)
  | find (bound free : List Var) (c l r : Fm PF)

/-- Models `SortProxy` (formula/sort/sort_proxy.rs:64-67): a static sort or a shared cell. -/
inductive Px
  | stat (s : Srt)
  | var (n : Nat)
  deriving DecidableEq, Repr

/-- The contents of the shared cells. -/
abbrev Store := List (Option Srt)

/-- Models `SortProxy::as_option` (sort_proxy.rs:171-173, 221-228). -/
def Px.get (st : Store) : Px → Option Srt
  | .stat s => some s
  | .var n => (st[n]?).join

/-- Models `SortProxy::set` (sort_proxy.rs:154-169): `none` is the error (read only, or already set). -/
def Px.set (st : Store) (s : Srt) : Px → Option Store
  | .stat _ => none
  | .var n => if n < st.length ∧ (st[n]?).join = none then some (st.set n (some s)) else none

/-- Models `SortProxy::expects` and `matches` (sort_proxy.rs:77-109), which only differ in the error. The
`unwrap` of `set` cannot fail: the proxy is a cell that is not set. -/
def Px.expects (st : Store) (r : Realm) (p : Px) (s : Srt) : Option Store :=
  match p.get st with
  | some s2 => if eqRealm r s2 s then some st else none
  | none => p.set st s

/-- Models `SortProxy::unify` and `unify_rev` (sort_proxy.rs:121-160). -/
def Px.unify (st : Store) (r : Realm) (p q : Px) : Option (Srt × Store) :=
  match p.get st, q.get st with
  | some s, some s2 => if eqRealm r s s2 then some (s, st) else none
  | none, some s2 => (p.set st s2).map fun st => (s2, st)
  | some s, none => (q.set st s).map fun st => (s, st)
  | none, none => none

/-- The signatures reachable from the parser (formula/function/function.rs:337-352): a fixed one, the n-ary one of
`and`/`or` (inner/booleans.rs:236-270), that of `=` (196-232) and that of `ite` (inner/if_then_else.rs:33-71). -/
inductive FSig
  | fixed (args : List Srt) (out : Srt)
  | nary
  | eq2
  | ite3
  deriving DecidableEq

/-- Models `Signature::realm` (formula/function/signature/mod.rs:98-100): the output of `ite` is a fresh cell. -/
def FSig.realm : FSig → Option Realm
  | .fixed _ o => realmOf o
  | .nary | .eq2 => some .ev
  | .ite3 => none

/-- Models `args_size().contains(&n)`. -/
def FSig.arityOk : FSig → Nat → Bool
  | .fixed a _, n => n == a.length
  | .nary, _ => true
  | .eq2, n => n == 2
  | .ite3, n => n == 3

/-- Models `FunctionCache` (parser/parser/parsing_environement/cache.rs:24-29) together with `signature()` (108-124)
and `Function::as_name`. -/
structure FInfo where
  sym : PF
  sig : FSig
  isName : Bool

/-- Models `StepCache` (parsing_environement/cache/step.rs:17-24): the parameters, and the texts of the message and of
the condition. -/
structure StepInfo where
  params : List (String × Srt)
  message : Tm
  condition : Tm

/-- Models `Macro` (parser/parser/parsing_environement.rs:41-48). -/
structure MacInfo where
  params : List (String × Srt)
  body : Tm

/-- Models `Environement` (parsing_environement.rs:60-83), as maps. -/
structure Env where
  sorts : String → Option Srt
  functions : String → Option FInfo
  steps : String → Option StepInfo
  macros : String → Option MacInfo
  shadowing : Bool

/-- What the elaborator mutates: the bound variables (`bvars`), the sort cells, and the functions created in the
container. All sorts of bound variables are static: `VarProxy` is only built by `From<Variable>`
(parsable_trait.rs:70-77). -/
structure St where
  bvars : List (String × Var)
  store : Store
  tbl : List TAQ

/-- Outcome: `loop` means that the fuel was not enough. -/
inductive Out (α : Type)
  | ok (a : α)
  | err
  | panic
  | loop

/-- Sequencing with `?`. -/
def Out.bind {α β : Type} : Out α → (α → Out β) → Out β
  | .ok a, f => f a
  | .err, _ => .err
  | .panic, _ => .panic
  | .loop, _ => .loop

/-- `with_location(..)?` on an option-like result. -/
def Out.ofOption {α : Type} : Option α → Out α
  | some a => .ok a
  | none => .err

/-- The result of elaborating a term. -/
abbrev PRes := Out (Fm PF × St)

/-- Models `get_eval_function` with the default evaluator (formula/function/inner/evaluate.rs:84-86, 104-112). -/
def evalSym : Srt → Option PF
  | .message => some .evalMsg
  | .condition => some .evalCond
  | _ => none

/-- Models `Evaluator::try_eval` (evaluate.rs:61-76) on a formula of known sort. -/
def tryEval (s : Srt) (f : Fm PF) : Fm PF :=
  match evalSym s with
  | some g => .app g [f]
  | none => f

/-- Models `get_function_mow` (parsing_environement.rs:240-264). -/
def getFun (E : Env) (r : Realm) (name : String) : Option FInfo :=
  if name = "true" ∨ name = "True" then
    some (match r with | .sym => ⟨.taTrue, .fixed [] .condition, false⟩ | .ev => ⟨.tru, .fixed [] .bool, false⟩)
  else if name = "false" ∨ name = "False" then
    some (match r with | .sym => ⟨.taFalse, .fixed [] .condition, false⟩ | .ev => ⟨.fls, .fixed [] .bool, false⟩)
  else if name = "not" then
    some (match r with
      | .sym => ⟨.taNot, .fixed [.condition] .condition, false⟩
      | .ev => ⟨.not, .fixed [.bool] .bool, false⟩)
  else E.functions name

/-- `signature.args()` as far as it is zipped with `n` arguments, and `signature.out()`; fresh cells are added to
the store. -/
def FSig.inst (st : Store) (n : Nat) : FSig → List Px × Px × Store
  | .fixed a o => (a.map .stat, .stat o, st)
  | .nary => (List.replicate n (.stat .bool), .stat .bool, st)
  | .eq2 => ([.var st.length, .var (st.length + 1)], .stat .bool, st ++ [none, none])
  | .ite3 => ([.stat .bool, .var st.length, .var st.length], .var st.length, st ++ [none])

/-- `.map(|(es, t)| t.parse(..)).collect()` (parsable_trait.rs:505-510): left to right, stops at the first error. -/
def parseList (p : Px → Tm → St → PRes) : List (Px × Tm) → St → Out (List (Fm PF) × St)
  | [], st => .ok ([], st)
  | (es, t) :: l, st =>
    (p es t st).bind fun x => (parseList p l x.2).bind fun y => .ok (x.1 :: y.1, y.2)

/-- The realm of the value before evaluation (parsable_trait.rs:491, 527-535). -/
def FInfo.frealm (i : FInfo) : Option Realm := if i.isName then some .sym else i.sig.realm

/-- The output sort, when it is static: `MESSAGE` for names (parsable_trait.rs:545-549). -/
def FInfo.outSort (_ : FInfo) (o : Px) : Px := if o = .stat .name then .stat .message else o

/-- The formula built by `parse_application` from the elaborated arguments (parsable_trait.rs:525-540). -/
def buildApp (r : Realm) (i : FInfo) (store : Store) (o : Px) (as : List (Fm PF)) : Fm PF :=
  let f := if i.isName then .app .nameToMsg [.app i.sym as] else .app i.sym as
  if r = .ev ∧ i.frealm = some .sym then
    match if i.isName then some Srt.message else o.get store with
    | some s => tryEval s f
    | none => f
  else f

/-- The sort compared with the expected one (parsable_trait.rs:542-559). -/
def appOut (r : Realm) (i : FInfo) (store : Store) (o : Px) : Px :=
  let o := i.outSort o
  if r = .ev ∧ i.frealm = some .sym then
    match (o.get store).bind evaluated with
    | some e => .stat e
    | none => o
  else o

/-- Models `parse_application` (parsable_trait.rs:478-562). `p` elaborates a term in a given realm. The arguments are
zipped with the argument sorts of the signature, so the ones beyond are not looked at. -/
def parseApp (p : Realm → Px → Tm → St → PRes) (r : Realm) (es : Px) (i : FInfo) (args : List Tm) (st : St) : PRes :=
  let (sa, o, store) := i.sig.inst st.store args.length
  (parseList (p (i.sig.realm.getD r)) (sa.zip args) { st with store := store }).bind fun x =>
    if i.sig.arityOk x.1.length then
      (Out.ofOption (Px.unify x.2.store r es (appOut r i x.2.store o))).bind fun u =>
        .ok (buildApp r i x.2.store o x.1, { x.2 with store := u.2 })
    else .err

/-- Models `VariableBinding::parse` (parsable_trait.rs:259-297), always called without an expected sort. -/
def parseBinding (E : Env) (b : Bnd) (st : St) : Out (Var × St) :=
  if ((E.functions b.1).isSome || (E.steps b.1).isSome || (st.bvars.map (·.1)).contains b.1) && !E.shadowing then .err
  else match E.sorts b.2 with
    | none => .err
    | some s =>
      let v : Var := ⟨st.bvars.length, s⟩
      .ok (v, { st with bvars := st.bvars ++ [(b.1, v)] })

/-- The bindings of a block, in order. -/
def parseBindings (E : Env) : List Bnd → St → Out (List Var × St)
  | [], st => .ok ([], st)
  | b :: l, st => (parseBinding E b st).bind fun x => (parseBindings E l x.2).bind fun y => .ok (x.1 :: y.1, y.2)

/-- Models `unique` on variables, compared by number (formula/variable.rs:44). -/
def uniq : List Nat → List Var → List Var
  | _, [] => []
  | seen, v :: l => if v.id ∈ seen then uniq seen l else v :: uniq (v.id :: seen) l

/-- The free variables kept by `new_quantifier_from_quantifier` and `new_find_such_that`
(formula/function/function.rs:222-226, 248-253); `Fm.free` is what `free_vars_iter` yields (C04). -/
def taFree (bound : List Var) (fs : List (Fm PF)) : List Var :=
  (uniq [] (fs.flatMap Fm.free)).filter fun v => !(bound.map Var.id).contains v.id

/-- Allocating the function and applying it to its free variables (parsable_trait.rs:241-243, 359-372). -/
def allocTA (st : St) (q : TAQ) (free : List Var) : Fm PF × St :=
  (.app (.taq st.tbl.length) (free.map .var), { st with tbl := st.tbl ++ [q] })

/-- Models the `ConstVar` case on a bound variable (parsable_trait.rs:402-443). -/
def parseVar (r : Realm) (es : Px) (v : Var) (st : St) : PRes :=
  if v.sort = .name then .err
  else match evaluated v.sort, r with
    | some s, .ev =>
      match evalSym v.sort with
      | none => .panic
      | some g =>
        (Out.ofOption (es.expects st.store .ev s)).bind fun store => .ok (.app g [.var v], { st with store := store })
    | _, r =>
      (Out.ofOption (Px.unify st.store r es (.stat v.sort))).bind fun u =>
        .ok (.var ⟨v.id, u.1⟩, { st with store := u.2 })

/-- Consecutive pairs (`tuple_windows`) as binary infix terms: models `as_pair_of_term` (parsable_trait.rs:841-860). -/
def pairTerms (op : Op) : List Tm → List Tm
  | a :: b :: l => .infx op [a, b] :: pairTerms op (b :: l)
  | _ => []

/-- Cached functions of parser/parser/parsable_trait/cached_builtins.rs. -/
def eqInfo : FInfo := ⟨.eq, .eq2, false⟩
def taEqInfo : FInfo := ⟨.taEq, .fixed [.message, .message] .condition, false⟩
def impInfo : Realm → FInfo
  | .sym => ⟨.taImp, .fixed [.condition, .condition] .condition, false⟩
  | .ev => ⟨.imp, .fixed [.bool, .bool] .bool, false⟩

/-- `iter.try_fold(first, ..)` (parsable_trait.rs:829-836). -/
def foldInfix (p : Px → Tm → St → PRes) (g : PF) (es : Px) : List Tm → Fm PF → St → PRes
  | [], acc, st => .ok (acc, st)
  | t :: l, acc, st => (p es t st).bind fun x => foldInfix p g es l (.app g [acc, x.1]) x.2

/-- The symbolic case of `And`/`Or` (parsable_trait.rs:822-837): `unwrap` on the first operand. -/
def symInfix (p : Px → Tm → St → PRes) (g : PF) (es : Px) : List Tm → St → PRes
  | [], _ => .panic
  | t :: l, st => (p es t st).bind fun x => foldInfix p g es l x.1 x.2

/-- Parameters numbered from 0 (parsable_trait.rs:651-660; cache/step.rs:37-42). -/
def numbered (ps : List (String × Srt)) : List (String × Var) := ps.zipIdx.map fun p => (p.1.1, ⟨p.2, p.1.2⟩)

/-- `args_vars_with_input` (cache/step.rs:44-59). -/
def withInput (ps : List (String × Srt)) : List (String × Var) := numbered ps ++ [("in", ⟨ps.length, .message⟩)]

/-- `StepCache::substitution` (cache/step.rs:67-79) as a `FrozenSubst` on the numbers `0..=n`. -/
def stepSubst (f : PF) (args : List (Fm PF)) : MSubst PF :=
  (List.range (args.length + 1)).zip (args ++ [.app .input [.app f args]])

/-- The list of macro arguments with the realm and sort of each parameter (parsable_trait.rs:625-640). -/
def parseMacArgs (p : Realm → Px → Tm → St → PRes) (r : Realm) : List ((String × Srt) × Tm) → St → Out (List (Fm PF) × St)
  | [], st => .ok ([], st)
  | (b, t) :: l, st =>
    (p ((realmOf b.2).getD r) (.stat b.2) t st).bind fun x =>
      (parseMacArgs p r l x.2).bind fun y => .ok (x.1 :: y.1, y.2)

/-- The arguments of an application (`RichFormula::Fun`, parsable_trait.rs:594-598). -/
def funArgs : Fm PF → Option (List (Fm PF))
  | .app _ as => some as
  | _ => none

/-- Models `Parsable for ast::Application` (parsable_trait.rs:386-475): `none` for `ConstVar`. -/
def parseApplication (p : Realm → Px → Tm → St → PRes) (E : Env) (r : Realm) (es : Px) (f : String)
    (args : Option (List Tm)) (st : St) : PRes :=
  match args with
  | none =>
    match st.bvars.find? (fun b => b.1 == f) with
    | some b => parseVar r es b.2 st
    | none => (Out.ofOption (getFun E r f)).bind fun i => parseApp p r es i [] st
  | some args => (Out.ofOption (getFun E r f)).bind fun i => parseApp p r es i args st

/-- Models the `Msg`/`Cond` case (parsable_trait.rs:590-619). `FrozenSubst::new` cannot fail: the step has been
applied to as many arguments as it has parameters. -/
def parseStepMac (p : Realm → Px → Tm → St → PRes) (E : Env) (r : Realm) (es : Px) (s : String) (args : List Tm)
    (body : StepInfo → Tm) (st : St) : PRes :=
  (parseApplication p E r (.stat .step) s (some args) st).bind fun x =>
    match funArgs x.1 with
    | none => .err
    | some as =>
      match E.steps s, E.functions s with
      | some c, some i =>
        if as.length = c.params.length then
          (p r es (body c) { x.2 with bvars := withInput c.params }).bind fun y =>
            .ok (Subst.apply (stepSubst i.sym as).get y.1, { y.2 with bvars := x.2.bvars })
        else .panic
      | _, _ => .err

/-- Models the `Other` case (parsable_trait.rs:620-680). `apply_substitution` maps the number `i < n` to the `i`-th
argument. -/
def parseMac (p : Realm → Px → Tm → St → PRes) (E : Env) (r : Realm) (es : Px) (m : String) (args : List Tm)
    (st : St) : PRes :=
  match E.macros m with
  | none => .err
  | some mi =>
    if mi.params.length = args.length then
      (parseMacArgs p r (mi.params.zip args) st).bind fun x =>
        (p r es mi.body { x.2 with bvars := numbered mi.params }).bind fun y =>
          .ok (Subst.apply (MSubst.get ((List.range mi.params.length).zip x.1)) y.1, { y.2 with bvars := x.2.bvars })
    else .err

/-- Models `Parsable for ast::Infix` (parsable_trait.rs:683-841). -/
def parseInfix (p : Realm → Px → Tm → St → PRes) (E : Env) (r : Realm) (es : Px) (op : Op) (ts : List Tm) (st : St) :
    PRes :=
  match op with
  | .hardEq =>
    if ts.length = 2 then parseApp p r es taEqInfo ts st
    else p r es (.infx .and (pairTerms .hardEq ts)) st
  | .eq =>
    match r with
    | .ev => parseApp p r es eqInfo ts st
    | .sym => p r es (.infx .hardEq ts) st
  | .neq => parseApplication p E r es "not" (some [.infx .eq ts]) st
  | .iff =>
    match r with
    | .ev => parseApp p r es eqInfo ts st
    | .sym => p r es (.infx .and (pairTerms .iff ts)) st
  | .implies => parseApp p r es (impInfo r) ts st
  | .and =>
    match r with
    | .ev => parseApp p r es ⟨.and, .nary, false⟩ ts st
    | .sym => symInfix (p r) .taAnd es ts st
  | .or =>
    match r with
    | .ev => parseApp p r es ⟨.or, .nary, false⟩ ts st
    | .sym => symInfix (p r) .taOr es ts st

/-- Models `LetIn::parse` (parsable_trait.rs:118-138). The variable stays in `bvars`. -/
def parseLet (p : Realm → Px → Tm → St → PRes) (E : Env) (r : Realm) (es : Px) (b : Bnd) (t₁ t₂ : Tm) (st : St) : PRes :=
  (parseBinding E b st).bind fun v =>
    (p r (.stat v.1.sort) t₁ v.2).bind fun x =>
      (p r es t₂ x.2).bind fun y => .ok (Subst.apply (Subst.oneVar v.1.id x.1) y.1, y.2)

/-- Expected sorts of the condition and the branches (parsable_trait.rs:160-168). -/
def iteCond : Realm → Px
  | .ev => .stat .bool
  | .sym => .stat .condition
def iteBr : Realm → Px → Px
  | .ev, es => es
  | .sym, _ => .stat .message

/-- Models `IfThenElse::parse` (parsable_trait.rs:148-184). In the symbolic realm the expected sort is ignored. -/
def parseIte (p : Realm → Px → Tm → St → PRes) (r : Realm) (es : Px) (c a b : Tm) (st : St) : PRes :=
  (p r (iteCond r) c st).bind fun x => (p r (iteBr r es) a x.2).bind fun y => (p r (iteBr r es) b y.2).bind fun z =>
    .ok (.app (match r with | .ev => .ite | .sym => .taIte) [x.1, y.1, z.1], z.2)

/-- Evaluate a message in the evaluated realm (parsable_trait.rs:243-248). -/
def wrapMsg (r : Realm) (f : Fm PF) : Fm PF :=
  match r with
  | .sym => f
  | .ev => tryEval .message f

/-- Models `FindSuchThat::parse` (parsable_trait.rs:195-249). -/
def parseFind (p : Realm → Px → Tm → St → PRes) (E : Env) (r : Realm) (es : Px) (vs : List Bnd) (c a b : Tm) (st : St) :
    PRes :=
  (Out.ofOption (es.expects st.store r .message)).bind fun store =>
  (p .sym (.stat .message) b { st with store := store }).bind fun z =>
  (parseBindings E vs z.2).bind fun v =>
  (p .sym (.stat .condition) c v.2).bind fun x =>
  (p .sym (.stat .message) a x.2).bind fun y =>
    let fr := taFree v.1 [x.1, y.1, z.1]
    let w := allocTA { y.2 with bvars := y.2.bvars.take z.2.bvars.length } (.find v.1 fr x.1 y.1 z.1) fr
    .ok (wrapMsg r w.1, w.2)

/-- Models `Quantifier::parse` (parsable_trait.rs:308-378). -/
def parseQuant (p : Realm → Px → Tm → St → PRes) (E : Env) (r : Realm) (es : Px) (k : AQ) (vs : List Bnd) (b : Tm)
    (st : St) : PRes :=
  let s : Srt := match r with | .ev => .bool | .sym => .condition
  let q : QKind := match k with | .all => .all | .ex => .ex
  (Out.ofOption (es.expects st.store r s)).bind fun store =>
  (parseBindings E vs { st with store := store }).bind fun v =>
  (p r (.stat s) b v.2).bind fun x =>
    let st' := { x.2 with bvars := x.2.bvars.take st.bvars.length }
    match r with
    | .ev => .ok (.quant q v.1 x.1, st')
    | .sym => .ok (allocTA st' (.quant q v.1 (taFree v.1 [x.1]) x.1) (taFree v.1 [x.1]))

/-- Models `Parsable for ast::Term` (parsable_trait.rs:862-888). `n` bounds the depth of recursion. -/
def parse (E : Env) : Nat → Realm → Px → Tm → St → PRes
  | 0, _, _, _, _ => .loop
  | n + 1, r, es, t, st =>
    match t with
    | .letin b t₁ t₂ => parseLet (parse E n) E r es b t₁ t₂ st
    | .ite c a b => parseIte (parse E n) r es c a b st
    | .find vs c a b => parseFind (parse E n) E r es vs c a b st
    | .quant k vs b => parseQuant (parse E n) E r es k vs b st
    | .cvar s => parseApplication (parse E n) E r es s none st
    | .app f args => parseApplication (parse E n) E r es f (some args) st
    | .infx op ts => parseInfix (parse E n) E r es op ts st
    | .msg s args => parseStepMac (parse E n) E r es s args (·.message) st
    | .cond s args => parseStepMac (parse E n) E r es s args (·.condition) st
    | .mac m args => parseMac (parse E n) E r es m args st

/-- Models `parse_assert_with_bvars` (parse_step_cell_asserts/asserts.rs:12-27): assertions, lemmas and queries. -/
def parseAssert (E : Env) (n : Nat) (t : Tm) (st : St) : PRes := parse E n .ev (.stat .bool) t { st with bvars := [] }

end Prs
end CV
