import Verif.SigUnify
import Verif.Protocol
/-
Model of the loading of a whole file: parser/parser/declare.rs, parser/parser/parsing_environement.rs and
parser/parser/parse_step_cell_asserts/*.rs. Paths are relative to /repo/crates/cryptovampire/src. Source locations,
logging and error texts are erased. The steps and the cells are visited in the iteration order of a hash map, which is a
parameter of the model.
-/
namespace CV
namespace Prs

/-! ### Declarations -/

/-- Models `ast::Assignement` (parser/ast/cell.rs:84-90). -/
structure AssignDecl where
  fresh : Option (List Bnd)
  cell : String
  args : List Tm
  term : Tm

/-- Models `ast::Step` (parser/ast/step.rs:30-41); options are erased, a missing list of assignments is empty. -/
structure StepDecl where
  name : String
  params : List Bnd
  condition : Tm
  message : Tm
  assigns : List AssignDecl

/-- Models `ast::Order` (parser/ast/ordering.rs). -/
structure OrderDecl where
  q : AQ
  vars : List Bnd
  t1 : Tm
  t2 : Tm
  op : OrderOp
  guard : Option Tm

/-- Models `ast::AssertCrypto` (parser/ast/assertions.rs). -/
structure CryptoDecl where
  name : String
  functions : List String
  options : List String

/-- Models `ast::AST` (parser/ast/main.rs) with `ast::Declaration` and `ast::Assert`. The sort of a cell is parsed but never
read (declare.rs:271-312). -/
inductive Decl
  | type (name : String)
  | func (name : String) (args : List String) (out : String)
  | cell (name : String) (args : List String) (sort : String)
  | step (d : StepDecl)
  | mac (name : String) (params : List Bnd) (body : Tm)
  | assertion (t : Tm)
  | lem (t : Tm)
  | query (t : Tm)
  | order (d : OrderDecl)
  | crypto (d : CryptoDecl)

/-! ### The environment -/

/-- Models `FunctionCache` (parsing_environement/cache.rs:25-29). -/
inductive Cache
  | func (i : FInfo)
  | step (params : List (String × Srt)) (d : StepDecl)
  | cell (args : List Srt)

/-- Models the maps of `Environement` (parsing_environement.rs:62-84) as association lists. -/
structure DEnv where
  sorts : List (String × Srt)
  functions : List (String × Cache)
  macros : List (String × MacInfo)
  used : List String
  shadowing : Bool

/-- Models `contains_name` (parsing_environement.rs:144-146). -/
def DEnv.contains (D : DEnv) (s : String) : Bool := (D.functions.lookup s).isSome || D.used.contains s

/-- Models `container_macro_name` (parsing_environement.rs:152-154). -/
def DEnv.containsMacro (D : DEnv) (s : String) : Bool := (D.macros.lookup s).isSome || D.used.contains (s ++ "!")

/-- Models `get_sort` (parsing_environement.rs:215-225). -/
def DEnv.sort (D : DEnv) (s : String) : Out Srt := Out.ofOption (D.sorts.lookup s)

/-- A list of sorts, up to the first error. -/
def DEnv.sortList (D : DEnv) : List String → Out (List Srt)
  | [] => .ok []
  | s :: l => (D.sort s).bind fun x => (D.sortList l).bind fun y => .ok (x :: y)

/-- Models `declare_sorts` (declare.rs:32-74). The new sorts are numbered by the size of the map. -/
def declareSorts : List Decl → DEnv → Out DEnv
  | [], D => .ok D
  | .type s :: l, D =>
    if (D.sorts.lookup s).isSome then .err
    else declareSorts l { D with sorts := D.sorts ++ [(s, .user D.sorts.length)] }
  | _ :: l, D => declareSorts l D

/-- Models `user_bool_to_condtion` (declare.rs:168-174). -/
def boolToCond : Srt → Srt
  | .bool => .condition
  | s => s

/-- Models `Sort::is_term_algebra` (formula/sort/mod.rs:149-151) on the sorts a file can mention. -/
def isTermAlgebra : Srt → Bool
  | .message | .condition | .step | .name => true
  | _ => false

/-- Models `declare_function` (declare.rs:176-230); the panic is the assertion of `new_user_term_algebra`
(formula/function/function.rs:298). -/
def declareFunc (D : DEnv) (name : String) (args : List String) (out : String) : Out DEnv :=
  if D.contains name then .err
  else (D.sort out).bind fun o => (D.sortList args).bind fun as =>
    let o := boolToCond o
    let as := as.map boolToCond
    if o = .name then
      .ok { D with functions := D.functions ++ [(name, .func ⟨.sym name, .fixed as .name, true⟩)] }
    else if isTermAlgebra o then
      .ok { D with functions := D.functions ++ [(name, .func ⟨.sym name, .fixed as o, false⟩)] }
    else .panic

/-- Models `declare_step` (declare.rs:232-269) and the check on `init` (declare.rs:133-143). -/
def declareStep (D : DEnv) (d : StepDecl) : Out DEnv :=
  if D.contains d.name then .err
  else (D.sortList (d.params.map (·.2))).bind fun as =>
    if d.name = "init" ∧ d.params ≠ [] then .err
    else .ok { D with functions := D.functions ++ [(d.name, .step ((d.params.map (·.1)).zip as) d)] }

/-- Models `declare_cell` (declare.rs:271-312). -/
def declareCell (D : DEnv) (name : String) (args : List String) : Out DEnv :=
  if D.contains name then .err
  else (D.sortList args).bind fun as => .ok { D with functions := D.functions ++ [(name, .cell as)] }

/-- Models `declare_let` (declare.rs:314-345). -/
def declareLet (D : DEnv) (name : String) (params : List Bnd) (body : Tm) : Out DEnv :=
  if D.containsMacro name then .err
  else (D.sortList (params.map (·.2))).bind fun as =>
    .ok { D with macros := D.macros ++ [(name, ⟨(params.map (·.1)).zip as, body⟩)] }

/-- What `fetch_all` collects; `bad` is `query.is_err()` (declare.rs:89-118). -/
structure Fetched where
  env : DEnv
  assertions : List Tm
  lemmas : List Tm
  orders : List OrderDecl
  crypto : List CryptoDecl
  query : Option Tm
  bad : Bool
  init : Bool

/-- One turn of the loop of `fetch_all` (declare.rs:90-145). -/
def fetchOne (F : Fetched) (d : Decl) : Out Fetched :=
  if F.bad then .ok F
  else match d with
    | .type _ => .ok F
    | .func n a o => (declareFunc F.env n a o).bind fun D => .ok { F with env := D }
    | .cell n a _ => (declareCell F.env n a).bind fun D => .ok { F with env := D }
    | .step d => (declareStep F.env d).bind fun D => .ok { F with env := D, init := F.init || d.name == "init" }
    | .mac n ps b => (declareLet F.env n ps b).bind fun D => .ok { F with env := D }
    | .assertion t => .ok { F with assertions := F.assertions ++ [t] }
    | .lem t => .ok { F with lemmas := F.lemmas ++ [t] }
    | .query t =>
      match F.query with
      | some _ => .ok { F with bad := true }
      | none => .ok { F with query := some t }
    | .order o => .ok { F with orders := F.orders ++ [o] }
    | .crypto c => .ok { F with crypto := F.crypto ++ [c] }

def fetchLoop : List Decl → Fetched → Out Fetched
  | [], F => .ok F
  | d :: l, F => (fetchOne F d).bind fun F => fetchLoop l F

/-- Models `INIT_STEP_AST` (parser/ast/step.rs:11-27). -/
def initDecl : StepDecl := ⟨"init", [], .cvar "ta$true", .cvar "empty", []⟩

/-- The query (declare.rs:162-165). -/
def endQuery (F : Fetched) (D : DEnv) : Out (Fetched × Tm) :=
  if F.bad then .err
  else match F.query with
    | none => .err
    | some q => .ok ({ F with env := D }, q)

/-- Models the end of `fetch_all` (declare.rs:147-165): the default `init`, and the query. -/
def fetchEnd (F : Fetched) : Out (Fetched × Tm) :=
  (if F.init then .ok F.env else declareStep F.env initDecl).bind (endQuery F)

/-- Models `fetch_all` (declare.rs:76-166). -/
def fetchAll (l : List Decl) (D : DEnv) : Out (Fetched × Tm) :=
  (fetchLoop l ⟨D, [], [], [], [], none, false, false⟩).bind fetchEnd

/-! ### The elaborator's view of the environment -/

/-- Models `FunctionCache::get_function` and `signature` (cache.rs:104-128). -/
def Cache.info (name : String) : Cache → FInfo
  | .func i => i
  | .step ps _ => ⟨.sym name, .fixed (ps.map (·.2)) .step, false⟩
  | .cell as => ⟨.sym name, .fixed (as ++ [.step]) .message, false⟩

/-- Models `as_step` (cache.rs:138-144), as far as `msg` and `cond` need it. -/
def Cache.stepInfo : Cache → Option StepInfo
  | .step ps d => some ⟨ps, d.message, d.condition⟩
  | _ => none

/-- Models `as_memory_cell` (cache.rs:130-136). -/
def Cache.cellArgs : Cache → Option (List Srt)
  | .cell as => some as
  | _ => none

/-- Models `as_function` (cache.rs:61-67). -/
def Cache.asFunc : Cache → Option FInfo
  | .func i => some i
  | _ => none

/-- The environment as the elaborator sees it. -/
def DEnv.toEnv (D : DEnv) : Env where
  sorts s := D.sorts.lookup s
  functions s := (D.functions.lookup s).map (Cache.info s)
  steps s := (D.functions.lookup s).bind Cache.stepInfo
  macros s := D.macros.lookup s
  shadowing := D.shadowing

/-! ### Steps and cells -/

/-- Models `InnerStep` (problem/step.rs:58-67) over the elaborator's symbols. -/
structure LStep where
  name : String
  vars : List Var
  condition : Fm PF
  message : Fm PF

/-- Models `Assignement` (problem/cell/inner/assignement.rs:11-20); the step is known by its name. -/
structure LAssign where
  step : String
  cell : String
  args : List (Fm PF)
  content : Fm PF
  fresh : List Var

/-- Models `substitution_input` (cache/step.rs:60-65). -/
def inputSubst (name : String) (ps : List (String × Srt)) : Subst PF :=
  Subst.oneVar ps.length (.app .input [.app (.sym name) ((numbered ps).map fun p => .var p.2)])

/-- Models the loop on fresh variables (parse_step_cell_asserts/step.rs:98-136): `i` is the next number. -/
def parseFresh (D : DEnv) : Nat → List Bnd → St → Out (List Var × St)
  | _, [], st => .ok ([], st)
  | i, b :: l, st =>
    (D.sort b.2).bind fun s =>
      if D.contains b.1 || (st.bvars.map (·.1)).contains b.1 then .err
      else (parseFresh D (i + 1) l { st with bvars := st.bvars ++ [(b.1, ⟨i, s⟩)] }).bind fun x =>
        .ok (⟨i, s⟩ :: x.1, x.2)

/-- `bvars.truncate(n)`. -/
def St.trunc (st : St) (n : Nat) : St := { st with bvars := st.bvars.take n }

/-- The arguments of the assigned cell (step.rs:140-163): zipped with the sorts of the cell. -/
def parseCellArgs (E : Env) (fuel k : Nat) (σ : Subst PF) : List (Tm × Srt) → St → Out (List (Fm PF) × St)
  | [], st => .ok ([], st)
  | (t, s) :: l, st =>
    (parse E fuel .sym (.stat s) t (st.trunc k)).bind fun x =>
      (parseCellArgs E fuel k σ l x.2).bind fun y => .ok (σ.apply x.1 :: y.1, y.2)

/-- Models one turn of the loop on assignments (step.rs:88-180). -/
def parseAssign (D : DEnv) (fuel : Nat) (name : String) (ps : List (String × Srt)) (a : AssignDecl) (st : St) :
    Out (LAssign × St) :=
  let n := ps.length + 1
  (match a.fresh with
    | some vs => parseFresh D n vs (st.trunc n)
    | none => .ok ([], st)).bind fun v =>
  let k := n + v.1.length
  (Out.ofOption ((D.functions.lookup a.cell).bind Cache.cellArgs)).bind fun sorts =>
  (parseCellArgs D.toEnv fuel k (inputSubst name ps) (a.args.zip sorts) v.2).bind fun as =>
  (parse D.toEnv fuel .sym (.stat .message) a.term (as.2.trunc k)).bind fun c =>
    .ok (⟨name, a.cell, as.1, (inputSubst name ps).apply c.1, v.1⟩, c.2)

def parseAssigns (D : DEnv) (fuel : Nat) (name : String) (ps : List (String × Srt)) : List AssignDecl → St →
    Out (List LAssign × St)
  | [], st => .ok ([], st)
  | a :: l, st =>
    (parseAssign D fuel name ps a st).bind fun x =>
      (parseAssigns D fuel name ps l x.2).bind fun y => .ok (x.1 :: y.1, y.2)

/-- Models `parse_step` (step.rs:32-192). -/
def parseStep (D : DEnv) (fuel : Nat) (name : String) (ps : List (String × Srt)) (d : StepDecl) (st : St) :
    Out ((LStep × List LAssign) × St) :=
  let n := ps.length + 1
  (parse D.toEnv fuel .sym (.stat .message) d.message { st with bvars := withInput ps }).bind fun m =>
  (parse D.toEnv fuel .sym (.stat .condition) d.condition (m.2.trunc n)).bind fun c =>
  (parseAssigns D fuel name ps d.assigns (c.2.trunc n)).bind fun as =>
    .ok ((⟨name, (numbered ps).map (·.2), (inputSubst name ps).apply c.1, (inputSubst name ps).apply m.1⟩, as.1), as.2)

/-- Models `parse_steps` (step.rs:194-215) on the functions of the environment in the order of the hash map; the
assignments are pushed as they come. -/
def parseSteps (D : DEnv) (fuel : Nat) : List (String × Cache) → St → Out ((List LStep × List LAssign) × St)
  | [], st => .ok (([], []), st)
  | (name, .step ps d) :: l, st =>
    (parseStep D fuel name ps d st).bind fun x =>
      (parseSteps D fuel l x.2).bind fun y => .ok ((x.1.1 :: y.1.1, x.1.2 ++ y.1.2), y.2)
  | _ :: l, st => parseSteps D fuel l st

/-- Models `InnerMemoryCell` (problem/cell/inner.rs:13-24). -/
structure LCell where
  name : String
  args : List Srt
  assigns : List LAssign

/-- Models `parse_cells` (parse_step_cell_asserts/cells.rs:11-57): a cell gets the assignments pushed for it. -/
def mkCells (as : List LAssign) : List (String × Cache) → List LCell
  | [] => []
  | (name, .cell args) :: l => ⟨name, args, as.filter fun a => a.cell == name⟩ :: mkCells as l
  | _ :: l => mkCells as l

/-! ### Orders -/

/-- Models `Ordering` (problem/protocol/ordering.rs:13-23). -/
structure LOrder where
  q : QKind
  vars : List Var
  excl : Bool
  fst : Fm PF
  snd : Fm PF
  guard : Fm PF

/-- The end of `parse_order_with_bvars` (order.rs:91-105). -/
def mkOrder (vars : List Var) (o : OrderDecl) (a b g : Fm PF) : LOrder :=
  let q : QKind := match o.q with | .all => .all | .ex => .ex
  match o.op with
  | .incompatible => ⟨q, vars, true, a, b, g⟩
  | .lt => ⟨q, vars, false, a, b, g⟩
  | .gt => ⟨q, vars, false, b, a, g⟩

/-- The guard (order.rs:77-82): `true` by default (`ARichFormula::default`, formula/formula/arc.rs:159-163). -/
def parseGuard (D : DEnv) (fuel : Nat) (g : Option Tm) (st : St) : PRes :=
  match g with
  | some g => parse D.toEnv fuel .ev (.stat .bool) g st
  | none => .ok (.app .tru [], st)

/-- Models `parse_order_with_bvars` (parse_step_cell_asserts/order.rs:38-109). -/
def parseOrderDecl (D : DEnv) (fuel : Nat) (o : OrderDecl) (st : St) : Out (LOrder × St) :=
  (D.sortList (o.vars.map (·.2))).bind fun ss =>
  let Γ : List (String × Var) := numbered ((o.vars.map (·.1)).zip ss)
  let n := Γ.length
  (parseGuard D fuel o.guard { st with bvars := Γ }).bind fun g =>
  (parse D.toEnv fuel .ev (.stat .step) o.t1 (g.2.trunc n)).bind fun a =>
  (parse D.toEnv fuel .ev (.stat .step) o.t2 (a.2.trunc n)).bind fun b =>
    .ok (mkOrder (Γ.map (·.2)) o a.1 b.1 g.1, b.2.trunc n)

/-! ### Cryptographic assumptions -/

/-- Models `CryptoAssumption` (problem/crypto_assumptions/mod.rs:41-48), functions by name. -/
inductive Crypto
  | nonce
  | memoryCell
  | ufCma (mac verify : String) (hmac : Bool)
  | eufCma (sign verify pk : String)
  | intCtxt (enc dec fail : String)
  | unfolding (recursive direct : Bool)
  deriving DecidableEq

/-- Models `verify_sign!` (parse_step_cell_asserts/assert_crypto.rs:65-78): the name must be a function whose signature
unifies with the required one. Unification with the n-ary `and`/`or` does not end
(formula/function/signature/mod.rs:60-93). -/
def verifySign (D : DEnv) (f : String) (args : List Srt) (out : Srt) : Out Unit :=
  (Out.ofOption ((D.functions.lookup f).bind Cache.asFunc)).bind fun i =>
    if i.sig = .nary then .loop
    else
      let (as, o, st) := i.sig.inst [] args.length
      (Out.ofOption (sigUnify .sym st (.stat out) (args.map .stat) o as)).bind fun _ => .ok ()

/-- Models `parse_uf_cma` (assert_crypto.rs:103-126). -/
def parseUfCma (D : DEnv) (fs opts : List String) : Out Crypto :=
  match fs with
  | [mac, verify] =>
    (verifySign D mac [.message, .message] .message).bind fun _ =>
    (verifySign D verify [.message, .message, .message] .condition).bind fun _ =>
      .ok (.ufCma mac verify (opts.contains "hmac"))
  | _ => .err

/-- Models `parse_euf_cma` (assert_crypto.rs:80-101). -/
def parseEufCma (D : DEnv) (fs opts : List String) : Out Crypto :=
  match fs with
  | [_, _] => parseUfCma D fs opts
  | [sign, verify, pk] =>
    (verifySign D sign [.message, .message] .message).bind fun _ =>
    (verifySign D verify [.message, .message, .message] .condition).bind fun _ =>
    (verifySign D pk [.message] .message).bind fun _ => .ok (.eufCma sign verify pk)
  | _ => .err

/-- Models `parse_int_ctxt` (assert_crypto.rs:128-150): a fourth function is ignored. -/
def parseIntCtxt (D : DEnv) (fs : List String) : Out Crypto :=
  match fs with
  | [enc, dec, fail] | [enc, dec, fail, _] =>
    (verifySign D enc [.message, .message, .message] .message).bind fun _ =>
    (verifySign D dec [.message, .message] .message).bind fun _ =>
    (verifySign D fail [] .message).bind fun _ => .ok (.intCtxt enc dec fail)
  | _ => .err

/-- Models `parse_unfolding` (assert_crypto.rs:152-176), with the option as it is spelled there. -/
def parseUnfolding (fs opts : List String) : Out Crypto :=
  if fs = [] then .ok (.unfolding (opts.contains "recurisve") (opts.contains "direct")) else .err

/-- Models `parse_assert_crypto` (assert_crypto.rs:38-63). -/
def parseCrypto (D : DEnv) (c : CryptoDecl) : Out Crypto :=
  if c.name = "nonce" then .ok .nonce
  else if c.name = "memory_cell" then .ok .memoryCell
  else if c.name = "euf-cma" ∨ c.name = "euf_cma" then parseEufCma D c.functions c.options
  else if c.name = "uf-cma" ∨ c.name = "uf_cma" then parseUfCma D c.functions c.options
  else if c.name = "int-ctxt" ∨ c.name = "int_ctxt" then parseIntCtxt D c.functions
  else if c.name = "unfolding" then parseUnfolding c.functions c.options
  else .err

def parseCryptos (D : DEnv) : List CryptoDecl → Out (List Crypto)
  | [] => .ok []
  | c :: l => (parseCrypto D c).bind fun x => (parseCryptos D l).bind fun y => .ok (x :: y)

/-! ### The problem -/

/-- Models `parse_asserts_with_bvars` (parse_step_cell_asserts/asserts.rs:27-40). -/
def parseAsserts (E : Env) (fuel : Nat) : List Tm → St → Out (List (Fm PF) × St)
  | [], st => .ok ([], st)
  | t :: l, st =>
    (parseAssert E fuel t st).bind fun x => (parseAsserts E fuel l x.2).bind fun y => .ok (x.1 :: y.1, y.2)

/-- Models `parse_orders_with_bvars` (order.rs:22-36). -/
def parseOrders (D : DEnv) (fuel : Nat) : List OrderDecl → St → Out (List LOrder × St)
  | [], st => .ok ([], st)
  | o :: l, st =>
    (parseOrderDecl D fuel o st).bind fun x => (parseOrders D fuel l x.2).bind fun y => .ok (x.1 :: y.1, y.2)

/-- Models the steps of `Protocol::new` (problem/protocol.rs:62-69): `none` is the panic "no init step !". -/
def swapInit (steps : List LStep) : Option (List LStep) :=
  (steps.findIdx? (fun s => s.name == "init")).bind fun i =>
    match steps[0]?, steps[i]? with
    | some a, some b => some ((steps.set 0 b).set i a)
    | _, _ => none

/-- Models `Problem` (problem/problem/mod.rs) as built by the parser; `tbl` are the functions created for quantifiers
and `find`s. -/
structure LProblem where
  env : DEnv
  steps : List LStep
  cells : List LCell
  orders : List LOrder
  assertions : List (Fm PF)
  lemmas : List (Fm PF)
  query : Fm PF
  crypto : List Crypto
  tbl : List TAQ

/-- Models `prbl_from_ast` (parsing_environement.rs:300-384). `ord` is the order in which the hash map of functions is
visited. -/
def load (ord : List (String × Cache) → List (String × Cache)) (fuel : Nat) (ignoreLemmas : Bool) (D : DEnv)
    (l : List Decl) : Out LProblem :=
  (declareSorts l D).bind fun D =>
  (fetchAll l D).bind fun Fq =>
  let F := Fq.1
  (parseSteps F.env fuel (ord F.env.functions) ⟨[], [], []⟩).bind fun ss =>
  (parseAsserts F.env.toEnv fuel F.assertions ss.2).bind fun as =>
  (parseAssert F.env.toEnv fuel Fq.2 as.2).bind fun q =>
  (parseCryptos F.env F.crypto).bind fun cs =>
  (if ignoreLemmas then .ok ([], q.2) else parseAsserts F.env.toEnv fuel F.lemmas q.2).bind fun ls =>
  (parseOrders F.env fuel F.orders ls.2).bind fun os =>
  match swapInit ss.1.1 with
  | none => .panic
  | some steps =>
    .ok ⟨F.env, steps, mkCells ss.1.2 (ord F.env.functions), os.1, as.1, ls.1, q.1, cs, os.2.tbl⟩

/-- The functions known before a file is read (formula/function/builtin.rs:239-270), with their names
(inner/booleans.rs:27-37, 95-99, 134-140; inner/term_algebra/connective.rs:44-65, 80-90; if_then_else.rs; step_macro.rs:66-73;
inner/step.rs:46-51) and signatures. -/
def builtinFunctions : List (String × Cache) := [
  ("and", .func ⟨.and, .nary, false⟩),
  ("ta$and", .func ⟨.taAnd, .fixed [.condition, .condition] .condition, false⟩),
  ("empty", .func ⟨.sym "empty", .fixed [] .message, false⟩),
  ("=", .func ⟨.eq, .eq2, false⟩),
  ("ta$=", .func ⟨.taEq, .fixed [.message, .message] .condition, false⟩),
  ("false", .func ⟨.fls, .fixed [] .bool, false⟩),
  ("ta$false", .func ⟨.taFalse, .fixed [] .condition, false⟩),
  ("true", .func ⟨.tru, .fixed [] .bool, false⟩),
  ("ta$true", .func ⟨.taTrue, .fixed [] .condition, false⟩),
  ("happens", .func ⟨.sym "happens", .fixed [.step] .bool, false⟩),
  ("ite", .func ⟨.ite, .ite3, false⟩),
  ("ta$ite", .func ⟨.taIte, .fixed [.condition, .message, .message] .message, false⟩),
  ("ta$iff", .func ⟨.sym "ta$iff", .fixed [.condition, .condition] .condition, false⟩),
  ("=>", .func ⟨.imp, .fixed [.bool, .bool] .bool, false⟩),
  ("ta$implies", .func ⟨.taImp, .fixed [.condition, .condition] .condition, false⟩),
  ("input", .func ⟨.input, .fixed [.step] .message, false⟩),
  ("lt", .func ⟨.sym "lt", .fixed [.step, .step] .bool, false⟩),
  ("gt", .func ⟨.sym "gt", .fixed [.step, .step] .bool, false⟩),
  ("leq", .func ⟨.sym "leq", .fixed [.step, .step] .bool, false⟩),
  ("cast$Message$name", .func ⟨.nameToMsg, .fixed [.name] .message, false⟩),
  ("not", .func ⟨.not, .fixed [.bool] .bool, false⟩),
  ("ta$not", .func ⟨.taNot, .fixed [.condition] .condition, false⟩),
  ("or", .func ⟨.or, .nary, false⟩),
  ("ta$or", .func ⟨.taOr, .fixed [.condition, .condition] .condition, false⟩),
  ("pred", .func ⟨.sym "pred", .fixed [.step] .step, false⟩),
  ("cond", .func ⟨.sym "cond", .fixed [.step] .condition, false⟩),
  ("msg", .func ⟨.sym "msg", .fixed [.step] .message, false⟩),
  ("exec", .func ⟨.sym "exec", .fixed [.step] .condition, false⟩)]

/-- Models `BUILT_IN_SORTS` (formula/sort/builtins.rs:22-24). -/
def builtinSorts : List (String × Srt) :=
  [("Bool", .bool), ("Condition", .condition), ("Message", .message), ("Bitstring", .bitstring), ("Step", .step),
    ("Name", .name)]

/-- Models `USED_KEYWORDS` (parser/mod.rs:25-52). -/
def keywords : List String :=
  ["and", "or", "not", "ite", "assert", "assert-not", "assert-theory", "rewrite", "subterm", "True", "False", "true", "false",
    "implies", "forall", "exists", "match", "declare-datatype", "declare-fun", "declare-sort", "define-fun",
    "define-fun-rec", "define-sort", "Int", "Real", "Array"]

/-- The environment `run_from_ast` starts from (lib.rs:59-73). -/
def env0 (shadowing : Bool) : DEnv := ⟨builtinSorts, builtinFunctions, [], keywords, shadowing⟩

end Prs
end CV
