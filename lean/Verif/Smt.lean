import Verif.Formula
/-
Model of the SMT output. Paths are relative to /repo/crates/cryptovampire/src:
smt/smt.rs, smt/smt/display.rs, formula/file_descriptior/{axioms,declare}.rs, formula/variable.rs,
the accessors of environement/environement.rs and the flag changes of runner/vampire.rs and
runner/z3.rs. `none` stands for a panic.
-/
namespace CV
namespace SmtM

/-- Texts are lists of characters. -/
abbrev Txt := List Char

/-- What `SmtFormula::from_arichformula` (smt/smt.rs:161-205) and `is_no_op`
(formula/function/function.rs:458-460) distinguish among the kinds of `InnerFunction`. -/
inductive SKind
  /-- `TermAlgebra`, `Step`, `Predicate`, `Tmp`, `Skolem`, `Name`, `EvaluatedFun`, and `Subterm` of the
  `Regular` kind -/
  | fn
  /-- `Evaluate` -/
  | evaluate
  /-- `Subterm` of the `Vampire` kind -/
  | vampSub
  | ite | eq | tru | fls | and | or | not | imp
  deriving DecidableEq

/-- The information the output needs about symbols and sorts: kind, `name()`, `fast_insort()`,
`fast_outsort()` (function.rs:327-335, 364-367) and the names of sorts (formula/sort/mod.rs:219-221). -/
structure SymInfo (F : Type) where
  kind : F → SKind
  name : F → Txt
  insort : F → Option (List Srt)
  outsort : F → Option Srt
  sortName : Srt → Txt

variable {F : Type}

/-- Models `Variable as Display` (variable.rs:24-28) and `Sort::short_name` (sort/mod.rs:263-265): first
character of the sort's name, `X`, the number. -/
def SymInfo.varName (K : SymInfo F) (v : Var) : Option Txt :=
  (K.sortName v.sort).head?.map fun c => c :: 'X' :: Nat.toDigits 10 v.id

/-- Models `SmtFormula` (smt.rs:39-65). -/
inductive SmtFm (F : Type)
  | var (v : Var)
  | fn (f : F) (args : List (SmtFm F))
  | all (vs : List Var) (b : SmtFm F)
  | ex (vs : List Var) (b : SmtFm F)
  | tru
  | fls
  | and (l : List (SmtFm F))
  | or (l : List (SmtFm F))
  | eq (l : List (SmtFm F))
  | neq (l : List (SmtFm F))
  | not (a : SmtFm F)
  | imp (a b : SmtFm F)
  | subterm (f : F) (a b : SmtFm F)
  | ite (c a b : SmtFm F)

/-- Models the `match f.as_inner()` of `SmtFormula::from_arichformula` (smt.rs:161-205) and
`unpack_args!` (smt.rs:124-137), on the already converted arguments. -/
def ofApp (k : SKind) (f : F) (args : List (SmtFm F)) : Option (SmtFm F) :=
  match k with
  | .fn => some (.fn f args)
  | .evaluate => some (.fn f args)
  | .vampSub => match args with
    | [a, b] => some (.subterm f a b)
    | _ => none
  | .ite => match args with
    | [c, l, r] => some (.ite c l r)
    | _ => none
  | .eq => some (.eq args)
  | .tru => some .tru
  | .fls => some .fls
  | .and => some (.and args)
  | .or => some (.or args)
  | .not => args.getLast?.map .not
  | .imp => match args with
    | [a, b] => some (.imp a b)
    | _ => none

mutual
/-- Models `SmtFormula::from_arichformula` (smt.rs:140-208). -/
def ofFm (K : SymInfo F) : Fm F → Option (SmtFm F)
  | .var v => some (.var v)
  | .quant .ex vs b => (ofFm K b).map (.ex vs)
  | .quant .all vs b => (ofFm K b).map (.all vs)
  | .app f args => (ofFms K args).bind (ofApp (K.kind f) f)
def ofFms (K : SymInfo F) : List (Fm F) → Option (List (SmtFm F))
  | [] => some []
  | a :: as => (ofFm K a).bind fun x => (ofFms K as).map (x :: ·)
end

/-- The loop `for e in iter { write!(f, "{} ", e) }` (smt.rs:118-120, display.rs:125-127). -/
def spaced (l : List Txt) : Txt := l.flatMap (· ++ [' '])

/-- Models `fun_list_fmt` (smt.rs:112-122). -/
def funList (s : Txt) (l : List Txt) : Txt := '(' :: s ++ ' ' :: spaced l ++ [')']

/-- The loop `for v in vars.iter() { write!(f, "({} {}) ", v, v.sort) }` (display.rs:140-142,
147-149, 225-227). -/
def dispVars (K : SymInfo F) : List Var → Option Txt
  | [] => some []
  | v :: vs => (K.varName v).bind fun n => (dispVars K vs).map fun r =>
      '(' :: n ++ ' ' :: K.sortName v.sort ++ [')', ' '] ++ r

mutual
/-- Models `Display for SmtDisplayer<SmtEnv, SmtFormula>` (display.rs:114-186). `ev` is
`is_evaluated_realm()`. -/
def disp (K : SymInfo F) (ev : Bool) : SmtFm F → Option Txt
  | .var v => K.varName v
  | .fn f args => (disps K ev args).bind fun ds =>
      if ev && K.kind f == .evaluate then
        match ds with
        | [d] => some d
        | _ => none
      else if ds.isEmpty then some (K.name f ++ [' '])
      else some ('(' :: K.name f ++ ' ' :: spaced ds ++ [')'])
  | .all vs b => (disp K ev b).bind fun d =>
      if vs.isEmpty then some d
      else (dispVars K vs).map fun bs => "(forall (".toList ++ bs ++ ") ".toList ++ d ++ [')']
  | .ex vs b => (disp K ev b).bind fun d =>
      if vs.isEmpty then some d
      else (dispVars K vs).map fun bs => "(exists (".toList ++ bs ++ ") ".toList ++ d ++ [')']
  | .tru => some "true".toList
  | .fls => some "false".toList
  | .and l => (disps K ev l).map fun ds =>
      if ds.isEmpty then "true".toList else funList "and".toList ds
  | .or l => (disps K ev l).map fun ds =>
      if ds.isEmpty then "false".toList else funList "or".toList ds
  | .eq l => (disps K ev l).map fun ds =>
      if ds.length ≤ 1 then "true".toList else funList "=".toList ds
  | .neq l => (disps K ev l).map fun ds =>
      if ds.length ≤ 1 then "true".toList else funList "distinct".toList ds
  | .ite c a b => (disp K ev c).bind fun c => (disp K ev a).bind fun a => (disp K ev b).map fun b =>
      "(ite ".toList ++ c ++ ' ' :: a ++ ' ' :: b ++ [')']
  | .imp a b => (disp K ev a).bind fun a => (disp K ev b).map fun b =>
      "(=> ".toList ++ a ++ ' ' :: b ++ [')']
  | .subterm f a b => (disp K ev a).bind fun a => (disp K ev b).map fun b =>
      "(subterm ".toList ++ K.name f ++ ' ' :: a ++ ' ' :: b ++ [')']
  | .not a => (disp K ev a).map fun a => "(not ".toList ++ a ++ [')']
def disps (K : SymInfo F) (ev : Bool) : List (SmtFm F) → Option (List Txt)
  | [] => some []
  | a :: as => (disp K ev a).bind fun x => (disps K ev as).map (x :: ·)
end

/-- Models `RewriteKind` (file_descriptior/axioms.rs:51-54). -/
inductive RwKind (F : Type)
  | bool
  | other (f : F)

/-- Models `Axiom` (axioms.rs:6-24). -/
inductive Ax (F : Type)
  | comment (s : Txt)
  | base (f : Fm F)
  | ground (s : Srt) (f : Fm F)
  | theory (f : Fm F)
  | query (f : Fm F)
  | rewrite (k : RwKind F) (vs : List Var) (pre post : Fm F)

/-- Models `Declaration`, `DataType`, `ConstructorDestructor`, `Subterm` (declare.rs:10-46). -/
inductive Decl (F : Type)
  | sort (s : Srt)
  | alias (src dst : Srt)
  | datatypes (l : List (Srt × List (F × List F)))
  | free (f : F)
  | subterm (f : F) (gs : List F)

/-- Models `GeneralFile` (file_descriptior/mod.rs). -/
structure GenFile (F : Type) where
  assertions : List (Ax F)
  declarations : List (Decl F)

/-- Models `Smt` (smt.rs:68-102) without `GetProof`, `SetOption` and `SetLogic`, which nothing builds. -/
inductive Smt (F : Type)
  | assert (f : SmtFm F)
  | assertTh (f : SmtFm F)
  | assertGround (s : Srt) (f : SmtFm F)
  | assertNot (f : SmtFm F)
  | declFun (f : F)
  | declSort (s : Srt)
  | declAlias (src dst : Srt)
  | declSub (f : F) (gs : List F)
  | declRw (k : RwKind F) (vs : List Var) (lhs rhs : SmtFm F)
  | declData (sorts : List Srt) (cons : List (List (F × List F)))
  | comment (s : Txt)
  | checkSat

/-- The options the output depends on: `use_assert_theory`, `use_assert_not`, `use_assert_ground`,
`no_rewrite`, and the realm (environement/environement.rs:91-194). -/
structure Opts where
  assertTheory : Bool
  assertNot : Bool
  assertGround : Bool
  noRewrite : Bool
  evaluated : Bool

/-- Models `VampireExec::write` (runner/vampire.rs:190-201): the flags set before writing. -/
def Opts.vampire (o : Opts) : Opts := { o with assertNot := true, assertTheory := true }
/-- Models `Z3Runner::write` (runner/z3.rs:38-49): the flags removed before writing
(`NON_SMT_STANDARD` of environement.rs). -/
def Opts.z3 (o : Opts) : Opts := { o with assertNot := false, assertTheory := false, assertGround := false }

/-- Models `Smt::from_axiom` (smt.rs:243-306). -/
def ofAx (K : SymInfo F) (o : Opts) : Ax F → Option (Smt F)
  | .comment s => some (.comment s)
  | .base f => (ofFm K f).map .assert
  | .theory f => (ofFm K f).map fun f => if o.assertTheory then .assertTh f else .assert f
  | .query f => (ofFm K f).map fun f => if o.assertNot then .assertNot f else .assert (.not f)
  | .rewrite k vs pre post => (ofFm K pre).bind fun pre => (ofFm K post).map fun post =>
      if o.noRewrite then .assert (.all vs (.eq [pre, post]))
      else .declRw k vs pre post
  | .ground s f => (ofFm K f).map fun f => if o.assertGround then .assertGround s f else .assert f

/-- Models `Smt::from_declaration` (smt.rs:308-335). -/
def ofDecl : Decl F → Smt F
  | .sort s => .declSort s
  | .free f => .declFun f
  | .datatypes l => .declData (l.map (·.1)) (l.map (·.2))
  | .subterm f gs => .declSub f gs
  | .alias a b => .declAlias a b

/-- `collect` of an iterator whose closure may panic. -/
def mapO {α β : Type} (f : α → Option β) : List α → Option (List β)
  | [] => some []
  | a :: as => (f a).bind fun x => (mapO f as).map (x :: ·)

/-- Models `SmtFile::from_general_file` (smt.rs:386-401). -/
def ofFile (K : SymInfo F) (o : Opts) (g : GenFile F) : Option (List (Smt F)) :=
  (mapO (ofAx K o) g.assertions).map fun as => g.declarations.map ofDecl ++ as ++ [.checkSat]

/-- The inner loop of the datatype output (display.rs:251-253): destructor name and argument sort;
`c.dest.get(i).unwrap()` panics when there are fewer destructors than arguments. -/
def dispDest (K : SymInfo F) : List Srt → List F → Option Txt
  | [], _ => some []
  | _ :: _, [] => none
  | s :: ss, d :: ds => (dispDest K ss ds).map fun r =>
      '(' :: K.name d ++ ' ' :: K.sortName s ++ [')', ' '] ++ r

/-- One constructor of the datatype output (display.rs:246-255). -/
def dispCons (K : SymInfo F) (s : Srt) (c : F × List F) : Option Txt :=
  if K.outsort c.1 = some s then
    (K.insort c.1).bind fun ss => (dispDest K ss c.2).map fun r =>
      "\t\t\t(".toList ++ K.name c.1 ++ ' ' :: r ++ ")\n".toList
  else none

/-- The constructors of one sort (display.rs:244-257). `cons` and `sorts` are walked together
(`sorts[j]` panics when there are more constructor lists than sorts). -/
def dispConss (K : SymInfo F) : List Srt → List (List (F × List F)) → Option Txt
  | _, [] => some []
  | [], _ :: _ => none
  | s :: ss, c :: cs => (mapO (dispCons K s) c).bind fun d => (dispConss K ss cs).map fun r =>
      "\t\t(\n".toList ++ d.flatten ++ "\t\t)\n".toList ++ r

/-- The head written for a rewrite rule (display.rs:228-232). -/
def rwName (K : SymInfo F) : RwKind F → Txt
  | .bool => "=".toList
  | .other f => K.name f

/-- Models `Display for SmtDisplayer<SmtEnv, Smt>` (display.rs:189-268). -/
def dispSmt (K : SymInfo F) (ev : Bool) : Smt F → Option Txt
  | .assert e => (disp K ev e).map fun d => "(assert ".toList ++ d ++ ")\n".toList
  | .assertTh e => (disp K ev e).map fun d => "(assert-theory ".toList ++ d ++ ")\n".toList
  | .assertGround s e => (disp K ev e).map fun d =>
      "(assert-ground ".toList ++ K.sortName s ++ ' ' :: d ++ ")\n".toList
  | .assertNot e => (disp K ev e).map fun d => "(assert-not ".toList ++ d ++ ")\n".toList
  | .declFun f => (K.insort f).bind fun ss => (K.outsort f).map fun s =>
      "(declare-fun ".toList ++ K.name f ++ " (".toList ++ spaced (ss.map K.sortName) ++ ") ".toList
        ++ K.sortName s ++ ")\n".toList
  | .declSort s => some ("(declare-sort ".toList ++ K.sortName s ++ " 0)\n".toList)
  | .declAlias a b => some ("(define-sort ".toList ++ K.sortName b ++ " () ".toList ++ K.sortName a
        ++ ")\n".toList)
  | .declSub f gs => some ("(declare-subterm-relation ".toList ++ K.name f ++ ' ' ::
        spaced (gs.map K.name) ++ ")\n".toList)
  | .declRw k vs l r => (dispVars K vs).bind fun bs => (disp K ev l).bind fun l =>
      (disp K ev r).map fun r =>
        "(declare-rewrite (forall (".toList ++ bs ++ ") (".toList ++
          rwName K k ++ ' ' :: l ++ ' ' :: r ++
          ")))\n".toList
  | .declData sorts cons => (dispConss K sorts cons).map fun r =>
      "(declare-datatypes\n".toList ++ "\t(".toList ++
        sorts.flatMap (fun s => '(' :: K.sortName s ++ " 0) ".toList) ++ ")\n\t(\n".toList ++ r ++
        "\t)\n)\n".toList
  | .checkSat => some "(check-sat)\n".toList
  | .comment s => some ("\n; ".toList ++ s ++ "\n\n".toList)

/-- Models `Smt::is_any_assert` (smt.rs:363-368). -/
def Smt.isAnyAssert : Smt F → Bool
  | .assert _ | .assertNot _ | .assertTh _ => true
  | _ => false

/-- Models `Display for SmtDisplayer<SmtEnv, SmtFile>` (display.rs:271-299); `i` is the counter of
assertions. -/
def dispFile (K : SymInfo F) (ev : Bool) : Nat → List (Smt F) → Option Txt
  | _, [] => some []
  | i, s :: ss => (dispSmt K ev s).bind fun d =>
      (dispFile K ev (if s.isAnyAssert then i + 1 else i) ss).map fun r =>
        (if s.isAnyAssert then "; ".toList ++ Nat.toDigits 10 i ++ ['\n'] else []) ++ d ++ ['\n'] ++ r

/-- The text of a problem: `SmtFile::from_general_file(env, file).as_diplay(env)`
(e.g. lib.rs:141-160, runner/vampire.rs:198-200). -/
def output (K : SymInfo F) (o : Opts) (g : GenFile F) : Option Txt :=
  (ofFile K o g).bind (dispFile K o.evaluated 1)

end SmtM
end CV
