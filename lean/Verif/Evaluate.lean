import Verif.Search
import Verif.Smt
/-
Model of the axioms about evaluation (problem/general_assertions/evaluate.rs), of the evaluator
(formula/function/inner/evaluate.rs) and of the propagation of evaluation through assertions and queries
(problem/general_assertions/assertion_preprocessor.rs). Paths are relative to /repo/crates/cryptovampire/src.
`none` is a panic.
-/
namespace CV
namespace Ev
open Dep SmtM
variable {F : Type}

/-- What this part of the code distinguishes about a symbol: models the cases of `InnerFunction` and
`TermAlgebra` matched by `generate` (evaluate.rs:36-216), with the data they carry.
`base args out ev`: `TermAlgebra::Function`, its signature and its evaluated symbol (`eval_fun`).
`conn args ev`: a `BaseConnective` other than `Not`, the sorts of its arguments (always `CONDITION`s,
connective.rs:93-99) and its evaluated symbol (connective.rs:68-80).
`taq`: a quantifier `Forall`/`Exists` of the term algebra; `fst`: a `FindSuchThat`
(inner/term_algebra/quantifier.rs). `evaluate`: `InnerFunction::Evaluate`. -/
inductive EKind (F : Type)
  | base (args : List Srt) (out : Srt) (ev : F)
  | conn (args : List Srt) (ev : F)
  | eqTa
  | notTa
  | ite
  | taq (q : QKind) (bound free : List Var) (content : Fm F)
  | fst (bound free : List Var) (cond succ fail : Fm F)
  | evaluate
  | other

/-- The data the axioms depend on. `L`, `not`, `ite`: the builtin symbols. `evs`: the map of the `Evaluator`
(inner/evaluate.rs:42-45), in the order of its iteration. `evalSort`: `Sort::maybe_evaluated_sort`
(sort/mod.rs:92-98), defined on the sorts `is_evaluatable` (sort/mod.rs:161-168) and no others. `functions`,
`sorts`: those of the problem. `symbolic`, `noBitstring`, `legacy`: the realm and the flags
`no_bitstring_functions`, `use_legacy_evaluate` of the environment. `rewriteFn s` and `skolem f i`: the
symbols made by `Function::new_rewrite_function` and `Function::new_skolem` (for the `i`-th bound variable
of the quantifier `f`). -/
structure Cfg (F : Type) where
  L : Lang F
  not : F
  ite : F
  evs : List (Srt × F)
  evalSort : Srt → Option Srt
  kind : F → EKind F
  functions : List F
  sorts : List Srt
  symbolic : Bool
  noBitstring : Bool
  legacy : Bool
  rewriteFn : Srt → F
  skolem : F → Nat → F

/-- Models `Evaluator::try_eval` and `eval` (inner/evaluate.rs:57-87). -/
def Cfg.eval (E : Cfg F) (t : Fm F) : Option (Fm F) :=
  (E.L.sortOf t).map fun s =>
    match E.evs.lookup s with
    | none => t
    | some e => .app e [t]

/-- Models `Function::maybe_get_evaluated` (traits.rs `MaybeEvaluatable`): `Some` for base functions and
connectives only. -/
def Cfg.evaluated (E : Cfg F) (f : F) : Option F :=
  match E.kind f with
  | .base _ _ ev => some ev
  | .conn _ ev => some ev
  | .eqTa => some E.L.eq
  | .notTa => some E.not
  | _ => none

/-- The axioms of the evaluated realm (evaluate.rs:108-117). -/
def Cfg.idAxioms (E : Cfg F) : List (Ax F) :=
  E.evs.map fun p => .base (.mkForall [⟨1, p.1⟩] (E.L.meq (.app p.2 [.var ⟨1, p.1⟩]) (.var ⟨1, p.1⟩)))

/-- The map `rewrite_funs` (evaluate.rs:129-143) at a sort. -/
def Cfg.rwKind (E : Cfg F) (s : Srt) : Option (RwKind F) :=
  if s ∈ E.sorts then
    match E.evalSort s with
    | some .bool => some .bool
    | some s' => some (.other (E.rewriteFn s'))
    | none => none
  else none

/-- The rewrite rule of a base function (evaluate.rs:145-170). -/
def Cfg.rewriteAx (E : Cfg F) (f : F) (args : List Srt) (out : Srt) (ev : F) : Option (Ax F) :=
  let vars := sortsToVariables 0 args
  match E.rwKind out, E.eval (.app f (vars.map .var)), mapO E.eval (vars.map .var) with
  | some k, some pre, some post => some (.rewrite k vars pre (.app ev post))
  | _, _, _ => none

/-- The legacy axiom of a base function (evaluate.rs:174-201). The premise compares the evaluation of each
variable of the first copy with itself. -/
def Cfg.legacyAx (E : Cfg F) (f : F) (args : List Srt) : Option (Ax F) :=
  let vars1 := sortsToVariables 0 args
  let vars2 := vars1.map fun v => { v with id := v.id + vars1.length }
  match mapO (fun p : Var × Var => (E.eval (.var p.1)).bind fun a => (E.eval (.var p.1)).map (E.L.meq a)) (vars1.zip vars2),
      E.eval (.app f (vars1.map .var)), E.eval (.app f (vars2.map .var)) with
  | some premise, some a, some b =>
    some (.base (.mkForall (vars1 ++ vars2) (.app E.L.imp [E.L.ands premise, E.L.meq a b])))
  | _, _, _ => none

/-- Models `generate_connectives` (evaluate.rs:218-255), for an equality, a negation and another connective. -/
def Cfg.eqAx (E : Cfg F) (f : F) : Option (Ax F) :=
  let a : Fm F := .var ⟨0, .message⟩
  let b : Fm F := .var ⟨1, .message⟩
  match E.eval (.app f [a, b]), E.eval a, E.eval b with
  | some t, some x, some y =>
    some (.base (.mkForall [⟨0, .message⟩, ⟨1, .message⟩] (E.L.meq t (E.L.meq x y))))
  | _, _, _ => none
/-- See `Cfg.eqAx`. Only one implication is generated for a negation (evaluate.rs:234-239). -/
def Cfg.notAx (E : Cfg F) (f : F) : Option (Ax F) :=
  let a : Fm F := .var ⟨0, .condition⟩
  match E.eval (.app f [a]), E.eval a with
  | some t, some x => some (.base (.mkForall [⟨0, .condition⟩] (.app E.L.imp [t, .app E.not [x]])))
  | _, _ => none
/-- See `Cfg.eqAx`. -/
def Cfg.connAx (E : Cfg F) (f : F) (args : List Srt) (ev : F) : Option (Ax F) :=
  let vars := sortsToVariables 0 args
  match E.eval (.app f (vars.map .var)), mapO E.eval (vars.map .var) with
  | some t, some xs => some (.base (.mkForall vars (E.L.meq t (.app ev xs))))
  | _, _ => none

/-- The axiom of `if … then … else` (evaluate.rs:204-209). -/
def Cfg.iteAx (E : Cfg F) (f : F) : Option (Ax F) :=
  let vars : List Var := [⟨0, .condition⟩, ⟨1, .message⟩, ⟨2, .message⟩]
  match E.eval (.app f (vars.map .var)), mapO E.eval (vars.map .var) with
  | some t, some xs => some (.base (.mkForall vars (E.L.meq t (.app E.ite xs))))
  | _, _ => none

/-- `mforall!`/`mexists!` (formula.rs:255-279). -/
def mkQuant (q : QKind) (vs : List Var) (b : Fm F) : Fm F :=
  match q with
  | .all => .mkForall vs b
  | .ex => .mkExists vs b

/-- Models `generate_quantifier` (evaluate.rs:258-285) for `Forall` and `Exists`: one implication. -/
def Cfg.taqAx (E : Cfg F) (f : F) (q : QKind) (bound free : List Var) (content : Fm F) : Option (Ax F) :=
  match E.eval (.app f (free.map .var)), E.eval content with
  | some t, some c => some (.base (.mkForall free (.app E.L.imp [t, mkQuant q bound c])))
  | _, _ => none

/-- The substitution of the bound variables by skolem terms (evaluate.rs:291-312). -/
def Cfg.skolemSubst (E : Cfg F) (f : F) (bound free : List Var) : MSubst F :=
  bound.zipIdx.map fun p => (p.1.id, .app (E.skolem f p.2) (free.map .var))

/-- Models `generate_quantifier` (evaluate.rs:286-342) for `FindSuchThat`. -/
def Cfg.fstAx (E : Cfg F) (f : F) (bound free : List Var) (cond succ fail : Fm F) : Option (List (Ax F)) :=
  let θ := (E.skolemSubst f bound free).get
  match E.eval cond, E.eval (Subst.apply θ cond), E.eval (Subst.apply θ succ), E.eval (Subst.apply θ fail),
      E.eval (.app f (free.map .var)) with
  | some c, some c', some l, some r, some t =>
    some [.base (.mkForall free (.app E.L.or [.mkForall bound (.app E.not [c]), c'])),
      .base (.mkForall free (E.L.meq t (.app E.ite [c', l, r])))]
  | _, _, _, _, _ => none

/-- The axioms of one symbol in the last loop of `generate` (evaluate.rs:203-215). -/
def Cfg.loopAx (E : Cfg F) (f : F) : Option (List (Ax F)) :=
  match E.kind f with
  | .conn args ev => (E.connAx f args ev).map ([·])
  | .eqTa => (E.eqAx f).map ([·])
  | .notTa => (E.notAx f).map ([·])
  | .ite => (E.iteAx f).map ([·])
  | .taq q bound free content => (E.taqAx f q bound free content).map ([·])
  | .fst bound free cond succ fail => E.fstAx f bound free cond succ fail
  | .base _ _ _ | .evaluate | .other => some []

/-- The rewrite rule of a symbol, when it is a base function; the `assert!` of evaluate.rs:53-56 comes first. -/
def Cfg.rewriteOf (E : Cfg F) (f : F) : Option (List (Ax F)) :=
  match E.kind f with
  | .base args out ev => (E.rewriteAx f args out ev).map ([·])
  | _ => some []

/-- The legacy axiom of a symbol, when it is a base function. -/
def Cfg.legacyOf (E : Cfg F) (f : F) : Option (List (Ax F)) :=
  match E.kind f with
  | .base args _ _ => (E.legacyAx f args).map ([·])
  | _ => some []

/-- The `assert!` of evaluate.rs:53-56: the output sort of every base function can be evaluated. -/
def Cfg.checked (E : Cfg F) : Bool :=
  E.functions.all fun f => match E.kind f with
    | .base _ out _ => (E.evalSort out).isSome
    | _ => true

/-- `flat_map` of an iterator whose closure may panic. -/
def flatO {α β : Type} (f : α → Option (List β)) (l : List α) : Option (List β) := (mapO f l).map List.flatten

/-- Models the assertions made by `generate` (evaluate.rs:36-216); the declarations are not modelled. -/
def Cfg.generate (E : Cfg F) : Option (List (Ax F)) :=
  if E.checked then
    (if E.symbolic then
      (if E.noBitstring then some [] else flatO E.rewriteOf E.functions).bind fun a =>
        (if E.legacy then flatO E.legacyOf E.functions else some []).map (a ++ ·)
      else some E.idAxioms).bind fun first =>
    (flatO E.loopAx E.functions).map fun last => .comment "evaluate".toList :: first ++ last
  else none

/-- Models `preprocess_after_eval` (assertion_preprocessor.rs:59-119). The first argument bounds the depth of
the recursion (the contents of a quantifier symbol are not a part of the term); `none` is a panic or a
recursion that is deeper. -/
def Cfg.after (E : Cfg F) : Nat → Fm F → Option (Fm F)
  | 0, _ => none
  | _ + 1, .var v =>
    match E.evalSort v.sort with
    | some s => some (.var ⟨v.id, s⟩)
    | none => E.eval (.var v)
  | n + 1, .app f args =>
    match E.evaluated f with
    | some g => (mapO (Cfg.after E n) args).map (.app g)
    | none =>
      match E.kind f with
      | .taq q bound free content =>
        ((FrozenSubst.newFrom (bound.map Var.id) args).bind FrozenSubst.toMulti).bind fun s =>
          (Cfg.after E n (Subst.apply s.get content)).map (.quant q free)
      | _ => E.eval (.app f args)
  | _ + 1, .quant _ _ _ => none

/-- `Function::is_evaluate`. -/
def Cfg.isEvaluate (E : Cfg F) (f : F) : Bool :=
  match E.kind f with
  | .evaluate => true
  | _ => false

mutual
/-- Models `preprocess_before_eval` (assertion_preprocessor.rs:26-59). Under a function symbol that is not an
evaluation the arguments are processed, and the term is rebuilt from the unprocessed ones. -/
def Cfg.before (E : Cfg F) (n : Nat) : Fm F → Option (Fm F)
  | .var v => some (.var v)
  | .app f args =>
    if E.isEvaluate f then
      match args with
      | a :: _ => E.after n a
      | [] => none
    else (Cfg.befores E n args).map fun _ => .app f args
  | .quant q vs b => (Cfg.before E n b).map (.quant q vs)
def Cfg.befores (E : Cfg F) (n : Nat) : List (Fm F) → Option (List (Fm F))
  | [] => some []
  | a :: as => (Cfg.before E n a).bind fun a' => (Cfg.befores E n as).map (a' :: ·)
end

/-- Models `propagate_evaluate` (assertion_preprocessor.rs:19-24). -/
def Cfg.propagate (E : Cfg F) (n : Nat) (t : Fm F) : Option (Fm F) := E.before n t

end Ev
end CV
