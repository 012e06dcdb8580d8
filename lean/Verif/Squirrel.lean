/-
Model of the conversion of Squirrel terms to CryptoVampire terms: squirrel/converters/ast_convertion.rs
and squirrel/converters/helper_functions*.rs. Paths are relative to /repo/crates/cryptovampire/src.
-/
import Verif.Sanitize
import Verif.Ast
import Verif.AllOrOne

namespace CV
namespace Sq

/-- Models `json::sort::Type` (squirrel/json/sort.rs:6-37); `TVar`, `TUnivar` and `Fun`, which are all
rejected, are `unsupported`. -/
inductive JTy
  | message | boolean | index | timestamp
  | tbase (p : Path)
  | tuple (els : List JTy)
  | unsupported
  | name

/-- Models `json::Variable` (squirrel/json/mod.rs:120-127). -/
structure JVar where
  name : String
  sort : JTy

/-- Models `json::Quant` (squirrel/json/term.rs:8-13). -/
inductive JQ
  | forall_ | exists_ | seq | lambda
  deriving DecidableEq

/-- Models `json::Term` and `json::Diff` (squirrel/json/term.rs:15-79). The type part of an `ISymb` is
never read by the conversion and is dropped. -/
inductive JT
  | app (f : JT) (args : List JT)
  | fun_ (symb : Path)
  | name (symb : Path) (args : List JT)
  | mac (symb : Path) (args : List JT) (ts : JT)
  | action (symb : Path) (args : List JT)
  | var (v : JVar)
  | letin (v d b : JT)
  | tuple (els : List JT)
  | proj (id : Nat) (body : JT)
  | diff (terms : List (String × JT))
  | find (vars : List JT) (c s f : JT)
  | quant (q : JQ) (vars : List JT) (body : JT)

/-- Models the part of `mmacro::Data` (squirrel/json/mmacro.rs:6-99) read when converting an application:
`General(ProtocolMacro)`, `General(Structured)` or `State`, and `Global` with its non-dummy inputs. -/
inductive MacData
  | protocol
  | structured
  | state
  | global (inputs : List JVar)

/-- Models `Context` (squirrel/converters/mod.rs:115-121) without its shape, and the maps of
`ProcessedSquirrelDump` (squirrel/json/squirrel_dump.rs:36-46) consulted by the conversion of terms:
`can_be_index` of a declared type, argument types of operators and names, kind of a macro. -/
structure Ctx where
  alnum : Char → Bool
  types : Path → Option Bool
  opArgs : Path → Option (List JTy)
  nameArgs : Path → Option (List JTy)
  macs : Path → Option MacData

variable (C : Ctx)

/-- `x.sanitized(&ctx)` (squirrel/mod.rs:80-85). -/
def Ctx.san (k : Kind) (s : String) : String := sanitize C.alnum k s

/-- Models `ToAst for json::sort::Type` (ast_convertion.rs:80-105). -/
def convTy : JTy → Res (AoO String)
  | .message => rpure "Message"
  | .boolean => rpure "Bool"
  | .timestamp => rpure "Step"
  | .index => rpure "index"
  | .tbase p =>
    match C.types p with
    | some false => rpure "Message"
    | _ => rpure (C.san .sort p.toStr)
  | .tuple _ => rpure "Message"
  | .unsupported => .err
  | .name => rpure "Name"

/-- `mdo! { let! sort = var.sort().convert(ctx); pure (var.sanitized(&ctx), sort) }`
(helper_functions.rs:53-56, ast_convertion.rs:126-129). -/
def bindVar (v : JVar) : Res (AoO Bnd) := rbind (convTy C v.sort) fun s => rpure (C.san .variable v.name, s)

/-- One element of the iterator of `to_variable_binding` (helper_functions.rs:45-58). -/
def bindTerm : JT → Res (AoO Bnd)
  | .var v => bindVar C v
  | _ => .err

/-- `filter_map` of helper_functions.rs:59-65: the successes. A panic while the iterator is consumed is a
panic of the whole. -/
def oks {α : Type} : List (Res α) → Res (List α)
  | [] => .ok []
  | .ok a :: r => (oks r).map (a :: ·)
  | .err :: r => oks r
  | .panic :: _ => .panic

/-- Whether an error is recorded in `err` (helper_functions.rs:59-65). -/
def isErr {α : Type} : Res α → Bool
  | .err => true
  | _ => false

/-- Models `to_variable_binding` (helper_functions.rs:39-72): the bindings are transposed first, then a
recorded error wins. -/
def bindTerms (vars : List JT) : Res (AoO (List Bnd)) :=
  let rs := vars.map (bindTerm C)
  (oks rs).bind fun l => (AoO.transposeIter l).bind fun out =>
    if rs.any isErr then .err else rbind (.ok out) rpure

/-- The conversion of a variable term (ast_convertion.rs:43-45). -/
def convVar (v : JVar) : Res (AoO Tm) := rpure (.cvar (C.san .variable v.name))

/-- `apply_fun` after its arguments are converted (helper_functions.rs:31-35). -/
def applyFun (f : String) (rs : List (Res (AoO Tm))) : Res (AoO Tm) :=
  (Res.collect rs).bind fun args => rbind (AoO.transposeIter args) fun l => rpure (.app f l)

/-- The body of helper_functions/convertion_functions.rs:96-103, with `SpecialFunction::from`
(convertion_functions.rs:113-123). -/
def finishApp (symb : String) (args : List Tm) : Res (AoO Tm) :=
  if symb = "if" then
    match args with
    | [c, l, r] => rpure (.ite c l r)
    | _ => .err
  else
    match Op.get symb with
    | some op => rpure (.infx op args)
    | none => rpure (.app symb args)

/-- The condition of convertion_functions.rs:76-79: the symbol takes exactly one argument, of a tuple
type. -/
def takesTuple : Option (List JTy) → Bool
  | some [.tuple _] => true
  | _ => false

/-- Models `convert_function_or_name_application` (convertion_functions.rs:66-105) after the conversion of
the arguments (`rs`) and, when the first one is a tuple, of its elements (`els`). -/
def convApp (k : Kind) (symb : Path) (tys : Option (List JTy)) (rs : List (Res (AoO Tm)))
    (els : Option (List (Res (AoO Tm)))) : Res (AoO Tm) :=
  let chosen := if takesTuple tys then els.getD rs else rs
  (Res.collect chosen).bind fun args =>
    rbind (AoO.transposeIter args) fun l => finishApp (C.san k symb.toStr) l

/-- Models `convert_macro_application` (convertion_functions.rs:153-199). -/
def convMac (symb : Path) (rs : List (Res (AoO Tm))) (ts : Res (AoO Tm)) : Res (AoO Tm) :=
  match C.macs symb with
  | some .protocol => applyFun (C.san .mac symb.toStr) [ts]
  | some .structured => applyFun (C.san .mac symb.toStr) (rs ++ [ts])
  | some .state => applyFun (C.san .mac symb.toStr) (rs ++ [ts])
  | some (.global inputs) =>
    (Res.collect (rs ++ inputs.map (convVar C) ++ [ts])).bind fun args =>
      rbind (AoO.transposeIter args) fun l => rpure (.mac (C.san .mac symb.toStr) l)
  | none => .err

/-- The fold of `convert_tuple` (convertion_functions.rs:304-311), over the converted elements. -/
def convTuple : Res (AoO Tm) → List (Res (AoO Tm)) → Res (AoO Tm)
  | acc, [] => acc
  | acc, r :: rs =>
    convTuple
      (acc.bind fun acc => r.bind fun t => rbind (AoO.transposeIter [t, acc]) fun
        | [t, acc] => rpure (.app "pair" [t, acc])
        | _ => .panic) rs

/-- `mdo! { let! x = acc; pure f([x]) }` (convertion_functions.rs:239-247). -/
def wrap1 (f : String) (x : Res (AoO Tm)) : Res (AoO Tm) := rbind x fun b => rpure (.app f [b])

/-- `(1..id).fold(body, ..)` (convertion_functions.rs:238-243): `m` iterations. -/
def sndIter : Nat → Res (AoO Tm) → Res (AoO Tm)
  | 0, x => x
  | m + 1, x => sndIter m (wrap1 "snd" x)

/-- Models `convert_projection` (convertion_functions.rs:232-248). -/
def convProj (id : Nat) (body : Res (AoO Tm)) : Res (AoO Tm) := wrap1 "fst" (sndIter (id - 1) body)

/-- Models `convert_function` (convertion_functions.rs:325-338). -/
def convFun (symb : Path) : Res (AoO Tm) :=
  match C.opArgs symb with
  | some [] => rpure (.app (C.san .function symb.toStr) [])
  | _ => .err

/-- Models `convert_quantifier` (convertion_functions.rs:272-292). -/
def convQuant (q : JQ) (vars : List JT) (body : Res (AoO Tm)) : Res (AoO Tm) :=
  let go (k : AQ) := rbind body fun c => rbind (bindTerms C vars) fun vs => rpure (.quant k vs c)
  match q with
  | .forall_ => go .all
  | .exists_ => go .ex
  | .seq => .err
  | .lambda => .err

/-- Models `convert_findst` (convertion_functions.rs:250-270). -/
def convFind (vars : List JT) (c s f : Res (AoO Tm)) : Res (AoO Tm) :=
  rbind c fun c => rbind s fun s => rbind f fun f => rbind (bindTerms C vars) fun vs => rpure (.find vs c s f)

/-- Insertion after the labels that are not larger. -/
def insLabel {α : Type} (d : String × α) : List (String × α) → List (String × α)
  | [] => [d]
  | e :: r => if d.1 < e.1 then d :: e :: r else e :: insLabel d r

/-- `sorted_unstable_by_key(|x| x.proj)` (convertion_functions.rs:214): which sorting algorithm is used only
matters between equal labels. -/
def byLabel {α : Type} : List (String × α) → List (String × α)
  | [] => []
  | d :: r => insLabel d (byLabel r)

/-- Lines 217-220 of convertion_functions.rs: the sorted branches, bound after the current shape. -/
def pick {α : Type} (sh : Shape) (terms : List α) : Res (AoO α) := sh.toAoov.bind fun _ => .ok (.all terms)

/-- The new shape (convertion_functions.rs:221), which depends on the number of branches only. -/
def diffShape (sh : Shape) (n : Nat) : Res Shape := (pick sh (List.replicate n ())).map AoO.shape

mutual
/-- Models `ToAst for json::Term` (ast_convertion.rs:35-77) together with `convert_application`
(convertion_functions.rs:36-57), `convert_diff` (208-226) and `convert_action_application` (314-320).
`sh` is the shape of the context. The branches of a `diff` are converted where the source would convert
them on demand: a value of type `Res` is only looked at when the source runs it. -/
def convert (sh : Shape) : JT → Res (AoO Tm)
  | .fun_ symb => convFun C symb
  | .letin _ _ _ => .err
  | .var v => convVar C v
  | .tuple els => convTuple (rpure (.app "empty" [])) (convertL sh els)
  | .quant q vars body => convQuant C q vars (convert sh body)
  | .find vars c s f => convFind C vars (convert sh c) (convert sh s) (convert sh f)
  | .proj id body => convProj id (convert sh body)
  | .diff terms =>
    (diffShape sh terms.length).bind fun sh' =>
      rbind (pick sh ((byLabel (convertD sh' terms)).map (·.2))) id
  | .app f args =>
    match f with
    | .fun_ symb => convApp C .function symb (C.opArgs symb) (convertL sh args) (convertHd sh args)
    | _ => .err
  | .name symb args => convApp C .name symb (C.nameArgs symb) (convertL sh args) (convertHd sh args)
  | .mac symb args ts => convMac C symb (convertL sh args) (convert sh ts)
  | .action symb args => applyFun (C.san .step symb.toStr) (convertL sh args)
/-- The conversion of every term of a list (`.map(|arg| arg.convert(ctx))`). -/
def convertL (sh : Shape) : List JT → List (Res (AoO Tm))
  | [] => []
  | t :: r => convert sh t :: convertL sh r
/-- The conversion of the branches of a `diff`. -/
def convertD (sh : Shape) : List (String × JT) → List (String × Res (AoO Tm))
  | [] => []
  | d :: r => convertP sh d :: convertD sh r
/-- One branch. -/
def convertP (sh : Shape) : String × JT → String × Res (AoO Tm)
  | (l, t) => (l, convert sh t)
/-- The elements of the first argument when it is a tuple (convertion_functions.rs:80). -/
def convertHd (sh : Shape) : List JT → Option (List (Res (AoO Tm)))
  | [] => none
  | t :: _ => convertTup sh t
/-- The elements of a tuple. -/
def convertTup (sh : Shape) : JT → Option (List (Res (AoO Tm)))
  | .tuple els => some (convertL sh els)
  | _ => none
end

/-- Models `mk_assertions` (squirrel/converters/top_level_converter.rs:99-115): `"==".app` builds an infix
term (parser/ast/ident.rs:134-152), the other symbols an application. -/
def pairAxioms : List Tm :=
  [.quant .all [("x", "Message"), ("y", "Message")]
      (Tm.mkApp "==" [Tm.mkApp "fst" [Tm.mkApp "pair" [.cvar "x", .cvar "y"]], .cvar "x"]),
   .quant .all [("x", "Message"), ("y", "Message")]
      (Tm.mkApp "==" [Tm.mkApp "snd" [Tm.mkApp "pair" [.cvar "x", .cvar "y"]], .cvar "y"])]

end Sq
end CV
