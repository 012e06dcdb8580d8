/-
Model of the conversion of a whole Squirrel file to CryptoVampire problems:
squirrel/converters/top_level_converter.rs, the rest of squirrel/converters/ast_convertion.rs (actions,
updates, macros) and the types of squirrel/json. Paths are relative to /repo/crates/cryptovampire/src.

The statements produced are those of Grammar.lean (`Txt2.Stm`), without source locations. Tracing
(`debug`, `trace!`) is left out.
-/
import Verif.SqOrder
import Verif.Grammar

namespace CV
namespace Sq
open Txt2 (Stm Asg Appl AKind)

/-! ### The file -/

/-- Models `SortKind` (squirrel/json/mtype.rs:4-12). -/
inductive SortKind
  | large | nameFixedLength | finite | fixed | wellFounded | enum
  deriving DecidableEq

/-- Models `SortData::can_be_index` (squirrel/json/mtype.rs:89-92). -/
def canBeIndex (l : List SortKind) : Bool := (l.contains .finite && l.contains .fixed) || l.contains .enum

/-- Models `FunctionType` (squirrel/json/mod.rs): `vars` are its type variables. -/
structure FunTy where
  vars : List String
  args : List JTy
  out : JTy

/-- Models `operator::Def` (squirrel/json/operator.rs:29-66): `other` stands for the abstract definitions that
the conversion does not tell apart (`DHgen`, `AEnc`, `ADec`, `SDec`, `Sign`, `PublicKey`, `Abstract`). The name,
type variables and output type of a concrete definition are never read. -/
inductive OpDef
  | hash (assoc : List Path)
  | senc (assoc : List Path)
  | checkSign (assoc : List Path)
  | other (assoc : List Path)
  | concrete (args : List JVar) (body : JT)

/-- Models `operator::Data` (squirrel/json/operator.rs:84-88). -/
structure OpData where
  sort : FunTy
  defn : OpDef

/-- Models `mmacro::Data` (squirrel/json/mmacro.rs:6-99), without what the conversion does not read: the bodies
of structured macros, arities, the initial value of a state, the action and types of a global macro. `inputs`
are all the inputs, dummies included. -/
inductive MacDef
  | protocol
  | structured
  | state (sort : JTy) (vars : List JVar)
  | global (inputs indices : List JVar) (ts : JVar) (body : JT)

/-- `Variable::is_dummy` (squirrel/json/mod.rs:132-134). -/
def JVar.dummy (v : JVar) : Bool := v.name == "$dummy"

/-- Models `Data::inputs` with `GlobalData::inputs` (squirrel/json/mmacro.rs:13-22, 95-99). -/
def MacDef.inputs : MacDef → List JVar
  | .global inputs _ _ _ => inputs.filter fun v => !v.dummy
  | _ => []

/-- Models `action::Update` (squirrel/json/action.rs:40-46). -/
structure Upd where
  symb : Path
  args : List JT
  body : JT

/-- Models `json::Action` (squirrel/json/action.rs:62-79) without its channels. -/
structure JAct where
  name : Path
  action : AT (List JVar)
  indices : List JVar
  condVars : List JVar
  cond : JT
  updates : List Upd
  output : JT
  globals : List Path

/-- What `convert_order.rs` reads of an action. -/
def JAct.act (a : JAct) : Act := ⟨a.name, a.action, a.indices⟩

/-- Models `Action::as_term` and `get_args` (squirrel/json/action.rs:82-102). -/
def JAct.asTerm (a : JAct) : JT := .action a.name ((a.action.flatMap fun it => it.par.2 ++ it.sum.2).map .var)

/-- Models `ProcessedSquirrelDump` (squirrel/json/squirrel_dump.rs:36-46). A hash map is the list of its entries in
the order in which it is iterated over, which is not specified: nothing below depends on the order. -/
structure Dump where
  query : JT
  hyps : List JT
  vars : List JVar
  actions : List JAct
  names : List (Path × FunTy)
  ops : List (Path × OpData)
  macs : List (Path × MacDef)
  types : List (Path × List SortKind)

/-- `get` of a hash map. -/
def find {α : Type} (l : List (Path × α)) (p : Path) : Option α := (l.find? fun e => e.1 = p).map (·.2)

/-- Models `get_action_from_action_v` (squirrel/json/squirrel_dump.rs:134-139) on the map of lines 166-169: of two
actions with the same control flow the later one is kept. -/
def Dump.byFlow (d : Dump) (v : AT (List JVar)) : Option JAct := d.actions.reverse.find? fun a => a.action = v

/-- What the conversion of terms reads of a macro. -/
def MacDef.data : MacDef → MacData
  | .protocol => .protocol
  | .structured => .structured
  | .state _ _ => .state
  | m@(.global _ _ _ _) => .global m.inputs

/-- The context of the conversion (top_level_converter.rs:14-17). -/
def Dump.ctx (alnum : Char → Bool) (d : Dump) : Ctx where
  alnum := alnum
  types p := (find d.types p).map canBeIndex
  opArgs p := (find d.ops p).map (·.sort.args)
  nameArgs p := (find d.names p).map (·.args)
  macs p := (find d.macs p).map MacDef.data

/-! ### The converters -/

section
variable (C : Ctx) (d : Dump)

/-- `iter.map(..).try_collect()?` followed by `let! l = Ok(AoOV::transpose_iter(l))`. -/
def gather {α : Type} (rs : List (Res (AoO α))) : Res (AoO (List α)) := (Res.collect rs).bind AoO.transposeIter

mutual
/-- Models `Term::vars` (squirrel/json/term.rs:99-148): the variables met when the children of a term are visited
from the last to the first. -/
def jvars : JT → List JVar
  | .app f args => jvars f ++ jvarsL args
  | .fun_ _ => []
  | .name _ args => jvarsL args
  | .mac _ args ts => jvars ts ++ jvarsL args
  | .action _ args => jvarsL args
  | .var v => [v]
  | .letin _ e b => jvars b ++ jvars e
  | .tuple els => jvarsL els
  | .proj _ b => jvars b
  | .diff ts => jvarsD ts
  | .find _ c s f => jvars f ++ (jvars s ++ jvars c)
  | .quant _ _ b => jvars b
/-- The variables of a list of terms. -/
def jvarsL : List JT → List JVar
  | [] => []
  | t :: r => jvarsL r ++ jvars t
/-- The variables of the branches of a `diff`. -/
def jvarsD : List (String × JT) → List JVar
  | [] => []
  | p :: r => jvarsD r ++ jvarsP p
/-- The variables of one branch. -/
def jvarsP : String × JT → List JVar
  | (_, t) => jvars t
end

/-- `input@a` (ast_convertion.rs:210-214, squirrel/json/path.rs:39-44, 61-68). -/
def inputAt (a : JAct) : JT := .mac ⟨[], "input"⟩ [] a.asTerm

/-- The `mdo!` block of ast_convertion.rs:219-225. -/
def addLet (acc : AoO Tm) (a : JAct) (v : JVar) : Res (AoO Tm) :=
  rbind (.ok acc) fun acc => rbind (convert C .any (inputAt a)) fun inp => rbind (convTy C v.sort) fun s =>
    rpure (.letin (C.san .variable v.name, s) inp acc)

/-- The `try_fold` of ast_convertion.rs:191-226 from the `i`-th input on; `flow` is `self.action`. Slicing past the
end panics (line 197). -/
def addLets (flow : AT (List JVar)) : Nat → List JVar → AoO Tm → Res (AoO Tm)
  | _, [], acc => .ok acc
  | i, v :: r, acc =>
    if flow.length < i then .panic
    else match d.byFlow (flow.take i) with
      | none => .err
      | some a => (addLet C acc a v).bind (addLets flow (i + 1) r)

/-- Models `prepare_term` (ast_convertion.rs:182-230). -/
def prepare (flow : AT (List JVar)) (fst : Option MacDef) (t : JT) : Res (AoO Tm) :=
  rbind (convert C .any t) fun t => addLets C d flow 0 ((fst.map MacDef.inputs).getD []).reverse (.any t)

/-- The variables of the arguments of an update that are not indices of the action (ast_convertion.rs:242-245). -/
def freshVars (indices : List JVar) (args : List JT) : List JVar :=
  (args.flatMap jvars).filter fun v => !indices.contains v

/-- Models `ToAst for UpdateRef` (ast_convertion.rs:232-272). -/
def convUpd (indices : List JVar) (u : Upd) : Res (AoO Asg) :=
  (Res.collect ((freshVars indices u.args).map (bindVar C))).bind fun fresh =>
    rbind (gather (convertL C .any u.args)) fun args => rbind (AoO.transposeIter fresh) fun fresh =>
      rbind (convert C .any u.body) fun t =>
        rpure ⟨if fresh.isEmpty then none else some fresh, .app (C.san .mac u.symb.toStr) args, t⟩

/-- `globals.iter().filter_map(get_macro).next()` (ast_convertion.rs:156-162). -/
def firstMacro (globals : List Path) : Option MacDef := globals.findSome? (find d.macs)

/-- Models `ToAst for json::Action` (ast_convertion.rs:107-180). -/
def convStep (a : JAct) : Res (AoO Stm) :=
  (Res.collect (a.indices.map (bindVar C))).bind fun args =>
    (Res.collect (a.updates.map (convUpd C a.indices))).bind fun asgs =>
      if !a.condVars.isEmpty then .panic
      else
        rbind (prepare C d a.action (firstMacro d a.globals) a.output) fun msg =>
          rbind (prepare C d a.action (firstMacro d a.globals) a.cond) fun cond =>
            rbind (AoO.transposeIter asgs) fun asgs => rbind (AoO.transposeIter args) fun args =>
              rpure (.step (C.san .step a.name.toStr) args cond msg (some asgs) [])

/-- Models `ToAst for ConcreteMacro` (ast_convertion.rs:326-353). -/
def convConcrete (symb : Path) (args : List JVar) (body : JT) : Res (AoO Stm) :=
  rbind (gather (args.map (bindVar C))) fun args => rbind (convert C .any body) fun t =>
    rpure (.mac (C.san .function symb.toStr) args t [])

/-- Models `ToAst for MacroRef` (ast_convertion.rs:284-318). -/
def convMacro (e : Path × MacDef) : Res (AoO (Option Stm)) :=
  match e.2 with
  | .global inputs indices ts body =>
    rbind (convConcrete C e.1 (indices ++ (MacDef.global inputs indices ts body).inputs ++ [ts]) body) fun s => rpure (some s)
  | _ => rpure none

/-- Models `transpose_raov` (squirrel/converters/helper_functions.rs:74-76). -/
def transposeRaov {α : Type} : Res (AoO (Option α)) → Option (Res (AoO α))
  | .ok a => a.transposeOpt.map .ok
  | .err => some .err
  | .panic => some .panic

/-- Models `mk_types` (top_level_converter.rs:388-405). -/
def mkTypes : List (Res (AoO Stm)) :=
  (d.types.filterMap (fun e => if canBeIndex e.2 then some (Stm.type (C.san .sort e.1.toStr) []) else none) ++
    [Stm.type "index" []]).map rpure

/-- Models `mk_cells` (top_level_converter.rs:280-302). -/
def mkCells : List (Res (AoO Stm)) :=
  d.macs.filterMap fun e =>
    match e.2 with
    | .state sort vars => some (rbind (convTy C sort) fun s => rbind (gather (vars.map fun v => convTy C v.sort)) fun args =>
        rpure (.cell (C.san .mac e.1.toStr) args s []))
    | _ => none

/-- `FORBIDDEN_FUNCTIONS` (squirrel/converters/mod.rs:72-75). -/
def forbidden : List String := ["diff", ">", ">=", "qatt"]

/-- `BUILTIN_FUNCTION` (squirrel/converters/mod.rs:77-84). -/
def builtinOps : List String :=
  ["&&", "||", "and", "or", "<=>", "=>", "=", "<=", "<", "not", "true", "false", "empty", "ø", "happens", "pred", "if"]

/-- Whether a definition is concrete (squirrel/json/operator.rs:70-77). -/
def OpDef.isConcrete : OpDef → Bool
  | .concrete _ _ => true
  | _ => false

/-- The argument types declared (top_level_converter.rs:383-389): those of the last argument when it is a tuple. -/
def declArgs (args : List JTy) : List JTy :=
  match args.getLast? with
  | some (.tuple els) => els
  | _ => args

/-- The closure of top_level_converter.rs:374-394. -/
def declFun (symb : String) (args : List JTy) (out : JTy) : Res (AoO Stm) :=
  rbind (convTy C out) fun s => rbind (gather ((declArgs args).map (convTy C))) fun args => rpure (.func symb args s [])

/-- Models `mk_funs_and_names` (top_level_converter.rs:327-386). The check of line 376 never fails, because of the
filter before it. -/
def mkFuns : List (Res (AoO Stm)) :=
  (d.names.filterMap fun e => if e.2.vars.isEmpty then some (declFun C (C.san .name e.1.toStr) e.2.args .name) else none) ++
  d.ops.filterMap fun e =>
    if forbidden.contains e.1.toStr || builtinOps.contains e.1.toStr then none
    else if e.2.defn.isConcrete then none
    else if e.2.sort.vars.isEmpty then some (declFun C (C.san .function e.1.toStr) e.2.sort.args e.2.sort.out)
    else none

/-- Models `mk_macros` (top_level_converter.rs:304-325). -/
def mkMacros : List (Res (AoO Stm)) :=
  (d.macs.filterMap fun e => transposeRaov (convMacro C e)) ++
  d.ops.filterMap fun e =>
    match e.2.defn with
    | .concrete args body => some (convConcrete C e.1 args body)
    | _ => none

/-- Models `mk_assertions` (top_level_converter.rs:99-115); see `pairAxioms`. -/
def mkAsserts : List (Res (AoO Stm)) := pairAxioms.map fun t => rpure (.assert .assert t [])

/-- Models `mk_steps` (top_level_converter.rs:239-247). -/
def mkSteps : List (Res (AoO Stm)) := d.actions.map (convStep C d)

/-- The statement of an ordering (convert_order.rs:126-135, 218-232). -/
def Ord.stm (o : Ord) : Stm :=
  .order .all o.args none o.t1 (match o.kind with | .incompatible => .incompatible | .lt => .lt | .gt => .gt) o.t2 []

/-- Lines 43-50 of top_level_converter.rs, with line 46 of convert_order.rs. -/
def mkOrders : List (Res (AoO Stm)) :=
  (orderLemmas C (d.actions.map JAct.act)).map fun r => r.bind fun o => rpure o.stm

/-- Models `assert_euf` (top_level_converter.rs:174-215). -/
def assertEuf (hash : Path) (verify vk : Option Path) : List Stm :=
  match verify with
  | some v => [.crypto "euf-cma" ([C.san .function hash.toStr, C.san .function v.toStr] ++
      (vk.map fun k => C.san .function k.toStr).toList) []]
  | none => [.crypto "euf-cma" [C.san .function hash.toStr, "verify_" ++ C.san .function hash.toStr] ["hmac"],
      .func ("verify_" ++ C.san .function hash.toStr) ["Message", "Message", "Message"] "Bool" []]

/-- Models `assert_int_ctxt` (top_level_converter.rs:217-237). -/
def assertIntCtxt (senc sdec : Path) : List Stm :=
  [.crypto "int_ctxt" [C.san .function senc.toStr, C.san .function sdec.toStr, C.san .function "fail"] []]

/-- The closure of top_level_converter.rs:141-168; a missing associated function panics. -/
def cryptoOf (symb : Path) : OpDef → Res (List Stm)
  | .hash _ => .ok (assertEuf C symb none none)
  | .senc assoc =>
    match assoc with
    | [] => .panic
    | sdec :: _ => .ok (assertIntCtxt C symb sdec)
  | .checkSign assoc =>
    match assoc with
    | [] => .panic
    | sign :: r => .ok (assertEuf C sign (some symb) r.head?)
  | _ => .ok []

/-- One element of an iterator of statements that may panic when it is asked for its elements. -/
def spread : Res (List Stm) → List (Res (AoO Stm))
  | .ok l => l.map rpure
  | .err => [.err]
  | .panic => [.panic]

/-- Models `assert_crypto` (top_level_converter.rs:126-172). -/
def mkCrypto : List (Res (AoO Stm)) :=
  (["nonce", "memory_cell", "unfolding"].map fun s => rpure (Stm.crypto s [] [])) ++
  d.ops.flatMap fun e => spread (cryptoOf C e.1 e.2.defn)

/-- The term of `mk_query` (top_level_converter.rs:249-278). -/
def queryTerm : JT :=
  .quant .forall_ (d.vars.map .var) (.app (.fun_ ⟨[], "=>"⟩)
    [d.hyps.foldl (fun acc t => .app (.fun_ ⟨[], "&&"⟩) [acc, t]) (.app (.fun_ ⟨[], "true"⟩) []), d.query])

/-- Models `mk_query` and lines 52-58 of top_level_converter.rs. -/
def mkQuery : Res (AoO Stm) := rbind (convert C .any (queryTerm d)) fun t => rpure (.assert .query t [])

/-- Everything that is converted, in order (top_level_converter.rs:71-81). -/
def allStms : List (Res (AoO Stm)) :=
  mkTypes C d ++ mkCells C d ++ mkFuns C d ++ mkMacros C d ++ mkAsserts ++ mkSteps C d ++ mkOrders C d ++ mkCrypto C d ++ [mkQuery C d]

end

/-- Models `convert_squirrel_dump` (top_level_converter.rs:14-96). -/
def convDump (alnum : Char → Bool) (d : Dump) : Res (AoO (List Stm)) := gather (allStms (d.ctx alnum) d)

end Sq
end CV
