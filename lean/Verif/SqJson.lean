/-
Model of the decoding of Squirrel files: what `#[derive(Deserialize)]` makes of the types of squirrel/json,
read by `serde_json::from_str` (squirrel/mod.rs:19-22), and the maps of `ProcessedSquirrelDump`. Paths are
relative to /repo/crates/cryptovampire/src.

The crates serde (1.0.215) and serde_json (1.0.133) are not part of the repository; what is modelled of them is
their documented behaviour on a JSON value that is already read (`Json`):
* a structure is an object with each of its fields exactly once, in any order, other keys being ignored, or an array
  of its fields; a tuple or a `Vec` is an array; a newtype is what it contains;
* an enum is an object with the variant as its only key, or, for a variant without contents, a string;
* a value that is `#[serde(flatten)]`ed or `#[serde(untagged)]` is read into memory first, and then only an object
  will do; of the variants of an untagged enum the first that can be read is taken;
* (of what is read into memory, `{}` is also accepted for `null`; this is not modelled;)
* objects and arrays can be nested up to a depth of 127 (`remaining_depth`, which starts at 128), not counting values that
  are ignored.
-/
import Verif.SqTop
import Verif.AllOrOneProps

namespace CV
namespace Sq

/-- A JSON value. The keys of an object are those of the text, repetitions included. -/
inductive Json
  | null
  | bool (b : Bool)
  | int (n : Int)
  | float
  | str (s : String)
  | arr (l : List Json)
  | obj (l : List (String × Json))

mutual
/-- How deep objects and arrays are nested. -/
def Json.depth : Json → Nat
  | .arr l => depthL l + 1
  | .obj l => depthO l + 1
  | _ => 0
/-- The same, of several values. -/
def depthL : List Json → Nat
  | [] => 0
  | j :: r => max j.depth (depthL r)
/-- The same, of the values of an object. -/
def depthO : List (String × Json) → Nat
  | [] => 0
  | e :: r => max (depthP e) (depthO r)
/-- The same, of one of them. -/
def depthP : String × Json → Nat
  | (_, j) => j.depth
end

/-! ### serde -/

/-- All of the elements of an array. In all of what follows, the number is `remaining_depth`, before the value is entered. -/
def dArr {α : Type} (n : Nat) (d : Json → Option α) (j : Json) : Option (List α) :=
  if n ≤ 1 then none else match j with
    | .arr l => seqOpt (l.map d)
    | _ => none

/-- The value of a key that has to be there exactly once. -/
def once (l : List (String × Json)) (k : String) : Option Json :=
  match l.filter fun e => e.1 = k with
  | [e] => some e.2
  | _ => none

/-- The fields of a structure. -/
def dRec (names : List String) (n : Nat) (j : Json) : Option (List Json) :=
  if n ≤ 1 then none else match j with
    | .obj l => seqOpt (names.map (once l))
    | .arr l => if l.length = names.length then some l else none
    | _ => none

/-- The fields of a structure that was read into memory first, for which only an object will do. All of it must fit. -/
def dFlat (names : List String) (n : Nat) (j : Json) : Option (List Json) :=
  if n ≤ j.depth then none else match j with
    | .obj l => seqOpt (names.map (once l))
    | _ => none

/-- A variant without contents, on its own or as `{"variant": null}`. -/
def dUnit {α : Type} (f : String → Option α) (n : Nat) : Json → Option α
  | .str s => f s
  | .obj [(s, .null)] => if n ≤ 1 then none else f s
  | _ => none

/-- An unsigned integer below a bound. -/
def dUint (b : Nat) : Json → Option Nat
  | .int (.ofNat k) => if k < b then some k else none
  | _ => none

/-- Models `Deserialize for StrRef` (crates/utils/src/string_ref.rs:283-330) with `CryptoVampireStrValidator`
(squirrel/json/mod.rs:72-83). -/
def dSymb : Json → Option String
  | .str s => if validSymb s then some s else none
  | _ => none

/-! ### Names and types -/

/-- `Path` and `NamesPath` (squirrel/json/path.rs:12-18, 30-37), and the names made of it (squirrel/json/mod.rs:13-69). -/
def dPath (n : Nat) (j : Json) : Option Path :=
  match dRec ["npath", "symb"] n j with
  | some [np, s] => match dRec ["npath"] (n - 1) np with
    | some [l] => (dArr (n - 2) dSymb l).bind fun l => (dSymb s).map fun s => ⟨l, s⟩
    | _ => none
  | _ => none

/-- `Ident` (squirrel/json/mod.rs:95-101): the tag is not read. -/
def dIdent (n : Nat) (j : Json) : Option String :=
  match dRec ["name"] n j with
  | some [s] => dSymb s
  | _ => none

/-- The variants of `Type` without contents (squirrel/json/sort.rs:6-37). -/
def tyUnit : String → Option JTy
  | "Message" => some .message
  | "Boolean" => some .boolean
  | "Index" => some .index
  | "Timestamp" => some .timestamp
  | "Name" => some .name
  | _ => none

/-- `Type` (squirrel/json/sort.rs:6-37). -/
def dSort : Nat → Json → Option JTy
  | 0, j => dUnit tyUnit 0 j
  | 1, j => dUnit tyUnit 1 j
  | n + 2, j => match j with
    | .obj [("TBase", v)] => (dPath (n + 1) v).map .tbase
    | .obj [("TVar", v)] => match dFlat ["name"] (n + 1) v with
      | some [s] => (dSymb s).map fun _ => .unsupported
      | _ => none
    | .obj [("TUnivar", v)] => match dFlat ["name"] (n + 1) v with
      | some [s] => (dSymb s).map fun _ => .unsupported
      | _ => none
    | .obj [("Tuple", v)] => match dRec ["elements"] (n + 1) v with
      | some [e] => match n with
        | 0 => none
        | m + 1 => (dArr (m + 1) (dSort m) e).map .tuple
      | _ => none
    | .obj [("Fun", v)] => match dRec ["in", "out"] (n + 1) v with
      | some [a, b] => (dSort n a).bind fun _ => (dSort n b).map fun _ => .unsupported
      | _ => none
    | j => dUnit tyUnit (n + 2) j

/-- `Variable` (squirrel/json/mod.rs:118-126). -/
def dVar (n : Nat) (j : Json) : Option JVar :=
  match dRec ["id", "ty"] n j with
  | some [i, t] => (dIdent (n - 1) i).bind fun s => (dSort (n - 1) t).map fun t => ⟨s, t⟩
  | _ => none

/-- `TypeVariable` (squirrel/json/mod.rs:158-162). -/
def dTVar (n : Nat) (j : Json) : Option String :=
  match dFlat ["name"] n j with
  | some [s] => dSymb s
  | _ => none

/-- `ISymb` (squirrel/json/path.rs:56-61); the type is dropped. -/
def dISymb (n : Nat) (j : Json) : Option Path :=
  match dRec ["s_symb", "s_typ"] n j with
  | some [p, t] => (dPath (n - 1) p).bind fun p => (dSort (n - 1) t).map fun _ => p
  | _ => none

/-! ### Terms -/

/-- `Quant` (squirrel/json/term.rs:7-13). -/
def quantOf : String → Option JQ
  | "ForAll" => some .forall_
  | "Exists" => some .exists_
  | "Seq" => some .seq
  | "Lambda" => some .lambda
  | _ => none

/-- `Term` and `Diff` (squirrel/json/term.rs:15-79). Every variant is an object in an object. -/
def dTerm : Nat → Json → Option JT
  | 0, _ => none
  | 1, _ => none
  | 2, _ => none
  | n + 3, j => match j with
    | .obj [("App", w)] => match dRec ["f", "args"] (n + 2) w with
      | some [f, a] => (dTerm (n + 1) f).bind fun f => (dArr (n + 1) (dTerm n) a).map fun a => .app f a
      | _ => none
    | .obj [("Fun", w)] => match dRec ["symb"] (n + 2) w with
      | some [s] => (dPath (n + 1) s).map .fun_
      | _ => none
    | .obj [("Name", w)] => match dRec ["symb", "args"] (n + 2) w with
      | some [s, a] => (dISymb (n + 1) s).bind fun s => (dArr (n + 1) (dTerm n) a).map fun a => .name s a
      | _ => none
    | .obj [("Macro", w)] => match dRec ["symb", "args", "timestamp"] (n + 2) w with
      | some [s, a, t] => (dISymb (n + 1) s).bind fun s => (dArr (n + 1) (dTerm n) a).bind fun a =>
          (dTerm (n + 1) t).map fun t => .mac s a t
      | _ => none
    | .obj [("Action", w)] => match dRec ["symb", "args"] (n + 2) w with
      | some [s, a] => (dPath (n + 1) s).bind fun s => (dArr (n + 1) (dTerm n) a).map fun a => .action s a
      | _ => none
    | .obj [("Var", w)] => match dFlat ["id", "ty"] (n + 2) w with
      | some [i, t] => (dIdent (n + 1) i).bind fun s => (dSort (n + 1) t).map fun t => .var ⟨s, t⟩
      | _ => none
    | .obj [("Let", w)] => match dRec ["var", "decl", "body"] (n + 2) w with
      | some [v, d, b] => (dTerm (n + 1) v).bind fun v => (dTerm (n + 1) d).bind fun d => (dTerm (n + 1) b).map fun b => .letin v d b
      | _ => none
    | .obj [("Tuple", w)] => match dRec ["elements"] (n + 2) w with
      | some [e] => (dArr (n + 1) (dTerm n) e).map .tuple
      | _ => none
    | .obj [("Proj", w)] => match dRec ["id", "body"] (n + 2) w with
      | some [i, b] => (dUint 256 i).bind fun i => (dTerm (n + 1) b).map fun b => .proj i b
      | _ => none
    | .obj [("Diff", w)] => match dRec ["terms"] (n + 2) w with
      | some [ts] => (dArr (n + 1) (fun e => match dRec ["proj", "term"] n e with
          | some [p, t] => (dSymb p).bind fun p => (match n with | 0 => none | m + 1 => dTerm m t).map fun t => (p, t)
          | _ => none) ts).map .diff
      | _ => none
    | .obj [("Find", w)] => match dRec ["vars", "condition", "success", "faillure"] (n + 2) w with
      | some [v, c, s, f] => (dArr (n + 1) (dTerm n) v).bind fun v => (dTerm (n + 1) c).bind fun c => (dTerm (n + 1) s).bind fun s =>
          (dTerm (n + 1) f).map fun f => .find v c s f
      | _ => none
    | .obj [("Quant", w)] => match dRec ["quantificator", "vars", "body"] (n + 2) w with
      | some [q, v, b] => (dUnit quantOf (n + 1) q).bind fun q => (dArr (n + 1) (dTerm n) v).bind fun v =>
          (dTerm (n + 1) b).map fun b => .quant q v b
      | _ => none
    | _ => none

/-! ### Actions -/

/-- A list of values. -/
def dList {α : Type} (d : Nat → Json → Option α) (n : Nat) (j : Json) : Option (List α) := dArr n (d (n - 1)) j

/-- A pair `(u32, A)`. -/
def dChoice {α : Type} (d : Nat → Json → Option α) (n : Nat) (j : Json) : Option (Nat × α) :=
  if n ≤ 1 then none else match j with
    | .arr [a, b] => (dUint (2 ^ 32) a).bind fun a => (d (n - 1) b).map fun b => (a, b)
    | _ => none

/-- `Item` (squirrel/json/action.rs:52-55). -/
def dItem {α : Type} (d : Nat → Json → Option α) (n : Nat) (j : Json) : Option (Item α) :=
  match dRec ["par_choice", "sum_choice"] n j with
  | some [p, s] => (dChoice d (n - 1) p).bind fun p => (dChoice d (n - 1) s).map fun s => ⟨p, s⟩
  | _ => none

/-- `Condition` (squirrel/json/action.rs:6-11). -/
def dCond (n : Nat) (j : Json) : Option (List JVar × JT) :=
  match dRec ["vars", "term"] n j with
  | some [v, t] => (dList dVar (n - 1) v).bind fun v => (dTerm (n - 1) t).map fun t => (v, t)
  | _ => none

/-- `Ouptut` (squirrel/json/action.rs:24-29); the channel is dropped. -/
def dOut (n : Nat) (j : Json) : Option JT :=
  match dRec ["channel", "term"] n j with
  | some [c, t] => (dPath (n - 1) c).bind fun _ => dTerm (n - 1) t
  | _ => none

/-- `Update` (squirrel/json/action.rs:37-43). -/
def dUpd (n : Nat) (j : Json) : Option Upd :=
  match dRec ["symb", "args", "body"] n j with
  | some [s, a, b] => (dPath (n - 1) s).bind fun s => (dList dTerm (n - 1) a).bind fun a => (dTerm (n - 1) b).map fun b => ⟨s, a, b⟩
  | _ => none

/-- `Action` (squirrel/json/action.rs:65-82). -/
def dAct (n : Nat) (j : Json) : Option JAct :=
  match dRec ["name", "action", "input", "indices", "condition", "updates", "output", "globals"] n j with
  | some [nm, ac, inp, ix, c, u, o, g] =>
    (dPath (n - 1) nm).bind fun nm => (dList (dItem (dList dVar)) (n - 1) ac).bind fun ac => (dPath (n - 1) inp).bind fun _ =>
      (dList dVar (n - 1) ix).bind fun ix => (dCond (n - 1) c).bind fun c => (dList dUpd (n - 1) u).bind fun u =>
        (dOut (n - 1) o).bind fun o => (dList dPath (n - 1) g).map fun g => ⟨nm, ac, ix, c.1, c.2, u, o, g⟩
  | _ => none

/-! ### Declarations -/

/-- `FunctionType` (squirrel/json/mod.rs:183-190). -/
def dFunTy (n : Nat) (j : Json) : Option FunTy :=
  match dRec ["vars", "args", "out"] n j with
  | some [v, a, o] => (dList dTVar (n - 1) v).bind fun v => (dList dSort (n - 1) a).bind fun a => (dSort (n - 1) o).map fun o => ⟨v, a, o⟩
  | _ => none

/-- `Content` (squirrel/json/content.rs:2-6). -/
def dContent {α : Type} (d : Nat → Json → Option α) (n : Nat) (j : Json) : Option (Path × α) :=
  match dRec ["symb", "data"] n j with
  | some [s, x] => (dPath (n - 1) s).bind fun s => (d (n - 1) x).map fun x => (s, x)
  | _ => none

/-- `DhHyp` (squirrel/json/operator.rs:5-11). -/
def dhOf : String → Option Unit
  | "DH_DDH" | "DH_CDH" | "DH_GDH" => some ()
  | _ => none

/-- `Assoc` (squirrel/json/operator.rs:13-19). -/
def assocOf : String → Option Unit
  | "Right" | "Left" | "NonAssoc" => some ()
  | _ => none

/-- `SymbType` (squirrel/json/operator.rs:21-25). -/
def dSymbType (n : Nat) (j : Json) : Option Unit :=
  match j with
  | .obj [("Infix", v)] => if n ≤ 1 then none else dUnit assocOf (n - 1) v
  | j => dUnit (fun s => if s = "Prefix" then some () else none) n j

/-- The variants of `AbstractDef` without contents (squirrel/json/operator.rs:27-39). -/
def absUnit : String → Option (List Path → OpDef)
  | "Hash" => some .hash
  | "SEnc" => some .senc
  | "CheckSign" => some .checkSign
  | "AEnc" | "ADec" | "SDec" | "Sign" | "PublicKey" => some .other
  | _ => none

/-- `AbstractDef` (squirrel/json/operator.rs:27-39). -/
def dAbs (n : Nat) (j : Json) : Option (List Path → OpDef) :=
  match j with
  | .obj [("DHgen", v)] => if n ≤ 1 then none else (dList (dUnit dhOf) (n - 1) v).map fun _ => .other
  | .obj [("Abstract", v)] => if n ≤ 1 then none else (dSymbType (n - 1) v).map fun _ => .other
  | j => dUnit absUnit n j

/-- `Def::Abstract` (squirrel/json/operator.rs:55-59). -/
def dAbstract (n : Nat) (j : Json) : Option OpDef :=
  match dFlat ["abstract_def", "associated_fun"] n j with
  | some [a, l] => (dAbs (n - 1) a).bind fun f => (dList dPath (n - 1) l).map f
  | _ => none

/-- `Concrete` (squirrel/json/operator.rs:41-50); the name, the type variables and the output type are dropped. -/
def dConcrete (n : Nat) (j : Json) : Option OpDef :=
  match dRec ["name", "type_variables", "args", "out_type", "body"] n j with
  | some [nm, tv, a, o, b] => (dSymb nm).bind fun _ => (dList dTVar (n - 1) tv).bind fun _ => (dList dVar (n - 1) a).bind fun a =>
      (dSort (n - 1) o).bind fun _ => (dTerm (n - 1) b).map fun b => .concrete a b
  | _ => none

/-- `Def` (squirrel/json/operator.rs:52-61): untagged. What was read into memory fits, so that `n` does not restrict what can be read of it. -/
def dDef (n : Nat) (j : Json) : Option OpDef :=
  if n ≤ j.depth then none else (dAbstract n j).or (dConcrete n j)

/-- `operator::Data` (squirrel/json/operator.rs:84-89). -/
def dOp (n : Nat) (j : Json) : Option OpData :=
  match dRec ["type", "def"] n j with
  | some [t, d] => (dFunTy (n - 1) t).bind fun t => (dDef (n - 1) d).map fun d => ⟨t, d⟩
  | _ => none

/-- `ProtocolMacro` (squirrel/json/mmacro.rs:31-35). -/
def protOf : String → Option MacDef
  | "Output" | "Cond" => some .protocol
  | _ => none

/-- `StructuredBody` (squirrel/json/mmacro.rs:48-53), which is dropped. -/
def dStructBody (n : Nat) (j : Json) : Option Unit :=
  match dRec ["body", "var"] n j with
  | some [b, v] => (dTerm (n - 1) b).bind fun _ => (dVar (n - 1) v).map fun _ => ()
  | _ => none

/-- `Structured` (squirrel/json/mmacro.rs:37-46). -/
def dStruct (n : Nat) (j : Json) : Option MacDef :=
  match dRec ["name", "default", "tinit", "body", "rec_ty", "ty"] n j with
  | some [nm, d, i, b, r, t] => (dPath (n - 1) nm).bind fun _ => (dTerm (n - 1) d).bind fun _ => (dTerm (n - 1) i).bind fun _ =>
      (dStructBody (n - 1) b).bind fun _ => (dSort (n - 1) r).bind fun _ => (dSort (n - 1) t).map fun _ => .structured
  | _ => none

/-- `GeneralMacro` (squirrel/json/mmacro.rs:24-29): untagged. -/
def dGeneral (n : Nat) (j : Json) : Option MacDef :=
  if n ≤ j.depth then none else (dUnit protOf n j).or (dStruct n j)

/-- `mmacro::action::Action` and `Kind` (squirrel/json/mmacro.rs:103-117), which is dropped. -/
def dShape (n : Nat) (j : Json) : Option Unit :=
  match dRec ["kind", "shape"] n j with
  | some [k, s] => (dUnit (fun s => if s = "Large" ∨ s = "Strict" then some () else none) (n - 1) k).bind fun _ =>
      (dList (dItem fun _ => dUint (2 ^ 64)) (n - 1) s).map fun _ => ()
  | _ => none

/-- `GlobalData` (squirrel/json/mmacro.rs:85-94). -/
def dGlobalData (n : Nat) (j : Json) : Option MacDef :=
  match dRec ["action", "inputs", "indices", "ts", "ty", "body"] n j with
  | some [ac, inp, ix, ts, ty, b] => (dShape (n - 1) ac).bind fun _ => (dList dVar (n - 1) inp).bind fun inp => (dList dVar (n - 1) ix).bind fun ix =>
      (dVar (n - 1) ts).bind fun ts => (dSort (n - 1) ty).bind fun _ => (dTerm (n - 1) b).map fun b => .global inp ix ts b
  | _ => none

/-- `GlobalMacro` (squirrel/json/mmacro.rs:55-61). -/
def dGlobal (n : Nat) (j : Json) : Option MacDef :=
  match dRec ["arity", "type", "data"] n j with
  | some [a, t, d] => (dUint (2 ^ 64) a).bind fun _ => (dSort (n - 1) t).bind fun _ => dGlobalData (n - 1) d
  | _ => none

/-- `StateMacroDef` (squirrel/json/mmacro.rs:77-82); the initial value is dropped. -/
def dStateDef (n : Nat) (j : Json) : Option (List JVar) :=
  match dRec ["vars", "init"] n j with
  | some [v, i] => (dList dVar (n - 1) v).bind fun v => (dTerm (n - 1) i).map fun _ => v
  | _ => none

/-- `StateMacro` (squirrel/json/mmacro.rs:69-75). -/
def dState (n : Nat) (j : Json) : Option MacDef :=
  match dRec ["arity", "type", "init"] n j with
  | some [a, t, i] => (dUint (2 ^ 64) a).bind fun _ => (dSort (n - 1) t).bind fun t => (dStateDef (n - 1) i).map fun v => .state t v
  | _ => none

/-- `mmacro::Data` (squirrel/json/mmacro.rs:6-11). -/
def dMac (n : Nat) (j : Json) : Option MacDef :=
  if n ≤ 1 then none else match j with
    | .obj [("General", v)] => dGeneral (n - 1) v
    | .obj [("Global", v)] => dGlobal (n - 1) v
    | .obj [("State", v)] => dState (n - 1) v
    | _ => none

/-- `SortKind` (squirrel/json/mtype.rs:4-12). -/
def kindOf : String → Option SortKind
  | "Large" => some .large
  | "NameFixedLength" => some .nameFixedLength
  | "Finite" => some .finite
  | "Fixed" => some .fixed
  | "WellFounded" => some .wellFounded
  | "Enum" => some .enum
  | _ => none

/-! ### The file -/

/-- Models `SquirrelDump` (squirrel/json/squirrel_dump.rs:19-31): what was read, in the order of the file. -/
structure Raw where
  query : JT
  hyps : List JT
  vars : List JVar
  actions : List JAct
  names : List (Path × FunTy)
  ops : List (Path × OpData)
  macs : List (Path × MacDef)
  types : List (Path × List SortKind)

/-- `SquirrelDump` (squirrel/json/squirrel_dump.rs:19-31). -/
def dDump (n : Nat) (j : Json) : Option Raw :=
  match dRec ["query", "hypotheses", "variables", "actions", "names", "operators", "macros", "types"] n j with
  | some [q, h, v, a, nm, o, m, t] =>
    (dTerm (n - 1) q).bind fun q => (dList dTerm (n - 1) h).bind fun h => (dList dVar (n - 1) v).bind fun v =>
      (dList dAct (n - 1) a).bind fun a => (dList (dContent dFunTy) (n - 1) nm).bind fun nm => (dList (dContent dOp) (n - 1) o).bind fun o =>
        (dList (dContent dMac) (n - 1) m).bind fun m => (dList (dContent (dList (dUnit kindOf))) (n - 1) t).map fun t =>
          ⟨q, h, v, a, nm, o, m, t⟩
  | _ => none

/-- `Parameters` (squirrel/json/mod.rs:213-218), which are dropped. -/
def dParams (n : Nat) (j : Json) : Option Unit :=
  match dRec ["num_retry", "timeout"] n j with
  | some [r, t] => (dUint (2 ^ 32) r).bind fun _ => match t with
    | .int _ => some ()
    | .float => some ()
    | _ => none
  | _ => none

/-- `CryptoVampireCall` (squirrel/json/mod.rs:206-211). -/
def dCall (n : Nat) (j : Json) : Option Raw :=
  match dRec ["parameters", "context"] n j with
  | some [p, c] => (dParams (n - 1) p).bind fun _ => dDump (n - 1) c
  | _ => none

/-- `serde_json::from_str` (squirrel/mod.rs:20), of a text that is JSON. -/
def decode (j : Json) : Option Raw := dCall 128 j

/-! ### The maps -/

/-- `collect` into a hash map: of entries with the same key the last is kept (squirrel/json/squirrel_dump.rs:183-187). -/
def lastOf {α : Type} (key : α → Path) : List α → List α
  | [] => []
  | e :: r => if r.any (fun f => key f = key e) then lastOf key r else e :: lastOf key r

/-- Models `From<SquirrelDump> for ProcessedSquirrelDump` (squirrel/json/squirrel_dump.rs:142-181), up to the order in which maps are iterated. -/
def Raw.process (r : Raw) : Dump where
  query := r.query
  hyps := r.hyps
  vars := r.vars
  actions := lastOf JAct.name r.actions
  names := lastOf (·.1) r.names
  ops := lastOf (·.1) r.ops
  macs := lastOf (·.1) r.macs
  types := lastOf (·.1) r.types

/-- Models `run_from_json` (squirrel/mod.rs:14-48) up to the problems: `none` when the file cannot be read. -/
def fromJson (alnum : Char → Bool) (j : Json) : Option (Res (AoO (List Txt2.Stm))) :=
  (decode j).map fun r => convDump alnum r.process

end Sq
end CV
