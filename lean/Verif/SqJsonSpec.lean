/-
Specification of the JSON format of Squirrel files: which values stand for which file. Nothing here refers to the
decoder of SqJson.lean but the types of JSON values and of files.
-/
import Mathlib.Data.List.Forall2
import Verif.SqJson

namespace CV
namespace Sq

/-! ### Values -/

/-- A key occurs exactly once, with a value. -/
def Once (l : List (String × Json)) (k : String) (v : Json) : Prop :=
  ∃ pre post, l = pre ++ (k, v) :: post ∧ (∀ e ∈ pre, e.1 ≠ k) ∧ ∀ e ∈ post, e.1 ≠ k

/-- An object with given values under given keys, and any other keys. -/
def ObjOf (names : List String) (vs : List Json) (j : Json) : Prop := ∃ l, j = .obj l ∧ List.Forall₂ (Once l) names vs

/-- A structure: an object or an array. -/
def Fields (names : List String) (vs : List Json) (j : Json) : Prop := ObjOf names vs j ∨ (j = .arr vs ∧ vs.length = names.length)

/-- A list. -/
def ArrOf {α : Type} (W : α → Json → Prop) (as : List α) (j : Json) : Prop := ∃ l, j = .arr l ∧ List.Forall₂ W as l

/-- A variant without contents. -/
def UnitOf (k : String) (j : Json) : Prop := j = .str k ∨ j = .obj [(k, .null)]

/-- A variant with contents. -/
def Alt (k : String) (v j : Json) : Prop := j = .obj [(k, v)]

/-- A number below a bound. -/
def NumOf (b k : Nat) (j : Json) : Prop := j = .int k ∧ k < b

/-- A symbol. -/
def SymbOf (s : String) (j : Json) : Prop := j = .str s ∧ (s = "$dummy" ∨ ∀ c ∈ s.toList, c ∉ [';', '$', '#'])

/-- A path. -/
def PathOf (p : Path) (j : Json) : Prop :=
  ∃ np s l, Fields ["npath", "symb"] [np, s] j ∧ Fields ["npath"] [l] np ∧ ArrOf SymbOf p.npath l ∧ SymbOf p.symb s

/-- A type. -/
inductive WTy : JTy → Json → Prop
  | message (j) : UnitOf "Message" j → WTy .message j
  | boolean (j) : UnitOf "Boolean" j → WTy .boolean j
  | index (j) : UnitOf "Index" j → WTy .index j
  | timestamp (j) : UnitOf "Timestamp" j → WTy .timestamp j
  | name (j) : UnitOf "Name" j → WTy .name j
  | tbase (p v j) : Alt "TBase" v j → PathOf p v → WTy (.tbase p) j
  | tvar (v s x j) : Alt "TVar" v j → ObjOf ["name"] [s] v → SymbOf x s → WTy .unsupported j
  | tunivar (v s x j) : Alt "TUnivar" v j → ObjOf ["name"] [s] v → SymbOf x s → WTy .unsupported j
  | tuple (els v l j) : Alt "Tuple" v j → Fields ["elements"] [.arr l] v → List.Forall₂ WTy els l → WTy (.tuple els) j
  | fun_ (s t v a b j) : Alt "Fun" v j → Fields ["in", "out"] [a, b] v → WTy s a → WTy t b → WTy .unsupported j

/-- A variable. -/
def WVar (v : JVar) (j : Json) : Prop :=
  ∃ i t s, Fields ["id", "ty"] [i, t] j ∧ Fields ["name"] [s] i ∧ SymbOf v.name s ∧ WTy v.sort t

/-- A type variable. -/
def WTVar (x : String) (j : Json) : Prop := ∃ s, ObjOf ["name"] [s] j ∧ SymbOf x s

/-- A symbol with its type. -/
def WISymb (p : Path) (j : Json) : Prop := ∃ s t ty, Fields ["s_symb", "s_typ"] [s, t] j ∧ PathOf p s ∧ WTy ty t

/-- The name of a quantifier. -/
def quantName : JQ → String
  | .forall_ => "ForAll"
  | .exists_ => "Exists"
  | .seq => "Seq"
  | .lambda => "Lambda"

mutual
/-- A term. -/
inductive WTm : JT → Json → Prop
  | app (f args w a l j) : Alt "App" w j → Fields ["f", "args"] [a, .arr l] w → WTm f a → List.Forall₂ WTm args l → WTm (.app f args) j
  | fun_ (p w a j) : Alt "Fun" w j → Fields ["symb"] [a] w → PathOf p a → WTm (.fun_ p) j
  | name (p args w a l j) : Alt "Name" w j → Fields ["symb", "args"] [a, .arr l] w → WISymb p a → List.Forall₂ WTm args l → WTm (.name p args) j
  | mac (p args ts w a l t j) : Alt "Macro" w j → Fields ["symb", "args", "timestamp"] [a, .arr l, t] w → WISymb p a → List.Forall₂ WTm args l →
      WTm ts t → WTm (.mac p args ts) j
  | action (p args w a l j) : Alt "Action" w j → Fields ["symb", "args"] [a, .arr l] w → PathOf p a → List.Forall₂ WTm args l → WTm (.action p args) j
  | var (v w i t s j) : Alt "Var" w j → ObjOf ["id", "ty"] [i, t] w → Fields ["name"] [s] i → SymbOf v.name s → WTy v.sort t → WTm (.var v) j
  | letin (v d b w x y z j) : Alt "Let" w j → Fields ["var", "decl", "body"] [x, y, z] w → WTm v x → WTm d y → WTm b z → WTm (.letin v d b) j
  | tuple (els w l j) : Alt "Tuple" w j → Fields ["elements"] [.arr l] w → List.Forall₂ WTm els l → WTm (.tuple els) j
  | proj (i b w x y j) : Alt "Proj" w j → Fields ["id", "body"] [x, y] w → NumOf 256 i x → WTm b y → WTm (.proj i b) j
  | diff (ts w l j) : Alt "Diff" w j → Fields ["terms"] [.arr l] w → List.Forall₂ WDiff ts l → WTm (.diff ts) j
  | find (vs c s f w l x y z j) : Alt "Find" w j → Fields ["vars", "condition", "success", "faillure"] [.arr l, x, y, z] w → List.Forall₂ WTm vs l →
      WTm c x → WTm s y → WTm f z → WTm (.find vs c s f) j
  | quant (q vs b w x l y j) : Alt "Quant" w j → Fields ["quantificator", "vars", "body"] [x, .arr l, y] w → UnitOf (quantName q) x →
      List.Forall₂ WTm vs l → WTm b y → WTm (.quant q vs b) j
/-- A branch of a `diff`. -/
inductive WDiff : String × JT → Json → Prop
  | mk (s t x y j) : Fields ["proj", "term"] [x, y] j → SymbOf s x → WTm t y → WDiff (s, t) j
end

/-! ### Actions -/

/-- A choice: its number, and what it depends on. -/
def WChoice {α : Type} (W : α → Json → Prop) (c : Nat × α) (j : Json) : Prop := ∃ a b, j = .arr [a, b] ∧ NumOf (2 ^ 32) c.1 a ∧ W c.2 b

/-- A step of a control flow. -/
def WItem {α : Type} (W : α → Json → Prop) (i : Item α) (j : Json) : Prop :=
  ∃ p s, Fields ["par_choice", "sum_choice"] [p, s] j ∧ WChoice W i.par p ∧ WChoice W i.sum s

/-- A condition. -/
def WCond (c : List JVar × JT) (j : Json) : Prop := ∃ v t, Fields ["vars", "term"] [v, t] j ∧ ArrOf WVar c.1 v ∧ WTm c.2 t

/-- An output. -/
def WOut (t : JT) (j : Json) : Prop := ∃ c x p, Fields ["channel", "term"] [c, x] j ∧ PathOf p c ∧ WTm t x

/-- An update. -/
def WUpd (u : Upd) (j : Json) : Prop :=
  ∃ s a b, Fields ["symb", "args", "body"] [s, a, b] j ∧ PathOf u.symb s ∧ ArrOf WTm u.args a ∧ WTm u.body b

/-- An action. -/
def WAct (a : JAct) (j : Json) : Prop :=
  ∃ nm ac inp ix c u o g p,
    Fields ["name", "action", "input", "indices", "condition", "updates", "output", "globals"] [nm, ac, inp, ix, c, u, o, g] j ∧
    PathOf a.name nm ∧ ArrOf (WItem (ArrOf WVar)) a.action ac ∧ PathOf p inp ∧ ArrOf WVar a.indices ix ∧ WCond (a.condVars, a.cond) c ∧
    ArrOf WUpd a.updates u ∧ WOut a.output o ∧ ArrOf PathOf a.globals g

/-! ### Declarations -/

/-- The type of a function. -/
def WFunTy (f : FunTy) (j : Json) : Prop :=
  ∃ v a o, Fields ["vars", "args", "out"] [v, a, o] j ∧ ArrOf WTVar f.vars v ∧ ArrOf WTy f.args a ∧ WTy f.out o

/-- An entry of a table. -/
def WContent {α : Type} (W : α → Json → Prop) (e : Path × α) (j : Json) : Prop :=
  ∃ s d, Fields ["symb", "data"] [s, d] j ∧ PathOf e.1 s ∧ W e.2 d

/-- How a symbol is written. -/
def WSymbType (j : Json) : Prop := UnitOf "Prefix" j ∨ ∃ v, Alt "Infix" v j ∧ ∃ k ∈ ["Right", "Left", "NonAssoc"], UnitOf k v

/-- The kinds of abstract operators. -/
inductive WAbs : (List Path → OpDef) → Json → Prop
  | hash (j) : UnitOf "Hash" j → WAbs .hash j
  | senc (j) : UnitOf "SEnc" j → WAbs .senc j
  | checkSign (j) : UnitOf "CheckSign" j → WAbs .checkSign j
  | other (k j) : k ∈ ["AEnc", "ADec", "SDec", "Sign", "PublicKey"] → UnitOf k j → WAbs .other j
  | dh (v l j) : Alt "DHgen" v j → ArrOf (fun (_ : Unit) j => ∃ k ∈ ["DH_DDH", "DH_CDH", "DH_GDH"], UnitOf k j) l v → WAbs .other j
  | abstract (v j) : Alt "Abstract" v j → WSymbType v → WAbs .other j

/-- An abstract definition. -/
def WAbstract (o : OpDef) (j : Json) : Prop :=
  ∃ a l f ps, ObjOf ["abstract_def", "associated_fun"] [a, l] j ∧ WAbs f a ∧ ArrOf PathOf ps l ∧ o = f ps

/-- A concrete definition. -/
def WConcrete (o : OpDef) (j : Json) : Prop :=
  ∃ nm tv a ot b x xs args ty body, Fields ["name", "type_variables", "args", "out_type", "body"] [nm, tv, a, ot, b] j ∧ SymbOf x nm ∧
    ArrOf WTVar xs tv ∧ ArrOf WVar args a ∧ WTy ty ot ∧ WTm body b ∧ o = .concrete args body

/-- A definition: a concrete one if it cannot be read as an abstract one. -/
def WDef (o : OpDef) (j : Json) : Prop := WAbstract o j ∨ (WConcrete o j ∧ ∀ o', ¬ WAbstract o' j)

/-- An operator. -/
def WOp (o : OpData) (j : Json) : Prop := ∃ t d, Fields ["type", "def"] [t, d] j ∧ WFunTy o.sort t ∧ WDef o.defn d

/-- The body of a macro that is defined by recursion. -/
def WStructBody (j : Json) : Prop := ∃ b v t x, Fields ["body", "var"] [b, v] j ∧ WTm t b ∧ WVar x v

/-- A macro that is defined by recursion. -/
def WStruct (j : Json) : Prop :=
  ∃ nm d i b r t p t1 t2 s1 s2, Fields ["name", "default", "tinit", "body", "rec_ty", "ty"] [nm, d, i, b, r, t] j ∧ PathOf p nm ∧ WTm t1 d ∧ WTm t2 i ∧
    WStructBody b ∧ WTy s1 r ∧ WTy s2 t

/-- What is said of the action of a macro. -/
def WShape (j : Json) : Prop :=
  ∃ k s l, Fields ["kind", "shape"] [k, s] j ∧ (UnitOf "Large" k ∨ UnitOf "Strict" k) ∧ ArrOf (WItem (NumOf (2 ^ 64))) l s

/-- A macro. -/
inductive WMac : MacDef → Json → Prop
  | protocol (v j) : Alt "General" v j → (UnitOf "Output" v ∨ UnitOf "Cond" v) → WMac .protocol j
  | structured (v j) : Alt "General" v j → WStruct v → WMac .structured j
  | global (inputs indices ts body v ar t d k ty ac inp ix x y b ty' j) : Alt "Global" v j → Fields ["arity", "type", "data"] [ar, t, d] v →
      NumOf (2 ^ 64) k ar → WTy ty t → Fields ["action", "inputs", "indices", "ts", "ty", "body"] [ac, inp, ix, x, y, b] d → WShape ac →
      ArrOf WVar inputs inp → ArrOf WVar indices ix → WVar ts x → WTy ty' y → WTm body b → WMac (.global inputs indices ts body) j
  | state (sort vars v ar t i k x y t' j) : Alt "State" v j → Fields ["arity", "type", "init"] [ar, t, i] v → NumOf (2 ^ 64) k ar → WTy sort t →
      Fields ["vars", "init"] [x, y] i → ArrOf WVar vars x → WTm t' y → WMac (.state sort vars) j

/-- The name of a kind of types. -/
def kindName : SortKind → String
  | .large => "Large"
  | .nameFixedLength => "NameFixedLength"
  | .finite => "Finite"
  | .fixed => "Fixed"
  | .wellFounded => "WellFounded"
  | .enum => "Enum"

/-- A file. -/
def WDump (r : Raw) (j : Json) : Prop :=
  ∃ q h v a nm o m t, Fields ["query", "hypotheses", "variables", "actions", "names", "operators", "macros", "types"] [q, h, v, a, nm, o, m, t] j ∧
    WTm r.query q ∧ ArrOf WTm r.hyps h ∧ ArrOf WVar r.vars v ∧ ArrOf WAct r.actions a ∧ ArrOf (WContent WFunTy) r.names nm ∧
    ArrOf (WContent WOp) r.ops o ∧ ArrOf (WContent WMac) r.macs m ∧ ArrOf (WContent (ArrOf fun k => UnitOf (kindName k))) r.types t

/-- A call: a file and parameters. -/
def WCall (r : Raw) (j : Json) : Prop :=
  ∃ p c x y k, Fields ["parameters", "context"] [p, c] j ∧ Fields ["num_retry", "timeout"] [x, y] p ∧ NumOf (2 ^ 32) k x ∧
    ((∃ i, y = .int i) ∨ y = .float) ∧ WDump r c

end Sq
end CV
