import Verif.Parser
import Verif.Semantics
/-
SPECIFICATION side for the elaborator: the meaning of surface terms, directly over names (lexical scoping, realms
directed by sorts, no variable numbers and no substitution), and the syntactic conditions under which the elaborator
is claimed to respect it. Nothing here models code, except that it shares the description `Env` of the declarations.
-/
namespace CV
namespace Prs

/-- What the symbols of a file are interpreted by: a structure for the function symbols, an operation for each
quantifier and `find` of the symbolic realm, and the values of user macros and of `msg`/`cond`. -/
structure Sem (D : Type) where
  M : Str PF D
  symQ : QKind → List Srt → (List D → D) → D
  symFind : List Srt → (List D → D) → (List D → D) → D → D
  mac : String → Realm → List D → D
  msg : String → Realm → List D → D
  cnd : String → Realm → List D → D

/-- A value environment, innermost binding first. -/
abbrev VEnv (D : Type) := List (String × Srt × D)

section
variable {D : Type}

/-- An arbitrary value. -/
def Sem.junk (I : Sem D) : D := I.M.ofProp True

/-- Evaluating a symbolic value of a sort. -/
def Sem.evalAt (I : Sem D) : Srt → D → D
  | .message, d => I.M.fn .evalMsg [d]
  | .condition, d => I.M.fn .evalCond [d]
  | _, d => d

/-- Bind a block of names. -/
def ext (j : D) : List (String × Srt) → List D → VEnv D → VEnv D
  | [], _, e => e
  | b :: l, ds, e => ext j l ds.tail ((b.1, b.2, ds.headD j) :: e)

/-- The bindings of a block with their sorts. -/
def sorted (E : Env) (vs : List Bnd) : List (String × Srt) := vs.map fun b => (b.1, (E.sorts b.2).getD .index)

/-- `∀`/`∃` over a block of sorts. -/
def qSem (M : Str PF D) : QKind → List Srt → (List D → Prop) → Prop
  | _, [], P => P []
  | .all, s :: ss, P => ∀ d, M.dom s d → qSem M .all ss fun ds => P (d :: ds)
  | .ex, s :: ss, P => ∃ d, M.dom s d ∧ qSem M .ex ss fun ds => P (d :: ds)

/-- The realm in which an argument for a parameter of sort `s` is read. -/
def argRealm (r : Realm) (s : Srt) : Realm := (realmOf s).getD r

/-- The realms in which the arguments of a function are read. -/
def sigRealms (r : Realm) : FSig → List Realm
  | .fixed a _ => a.map (argRealm r)
  | _ => []

/-- The meaning of `f(vs)` in a realm. -/
def Sem.appVal (I : Sem D) (r : Realm) (i : FInfo) (vs : List D) : D :=
  let v := I.M.fn i.sym vs
  if i.isName then
    match r with
    | .ev => I.evalAt .message (I.M.fn .nameToMsg [v])
    | .sym => I.M.fn .nameToMsg [v]
  else match r, i.sig with
    | .ev, .fixed _ o => I.evalAt o v
    | _, _ => v

/-- A binary operation on consecutive elements. -/
def consec (f : D → D → D) : List D → List D
  | a :: b :: l => f a b :: consec f (b :: l)
  | _ => []

/-- Left-nested combination of a non-empty list. -/
def nest (j : D) (f : D → D → D) : List D → D
  | [] => j
  | a :: l => l.foldl f a

/-- Conjunction. -/
def Sem.conj (I : Sem D) : Realm → List D → D
  | .ev, l => I.M.fn .and l
  | .sym, l => nest I.junk (fun a b => I.M.fn .taAnd [a, b]) l

/-- Disjunction. -/
def Sem.disj (I : Sem D) : Realm → List D → D
  | .ev, l => I.M.fn .or l
  | .sym, l => nest I.junk (fun a b => I.M.fn .taOr [a, b]) l

/-- `a === b`. -/
def Sem.hardEq1 (I : Sem D) (r : Realm) (a b : D) : D :=
  match r with
  | .ev => I.M.fn .evalCond [I.M.fn .taEq [a, b]]
  | .sym => I.M.fn .taEq [a, b]

/-- A chain of a binary relation: the conjunction over the consecutive pairs. -/
def Sem.chain (I : Sem D) (r : Realm) (f : D → D → D) : List D → D
  | [a, b] => f a b
  | l => I.conj r (consec f l)

/-- Right-nested implications. -/
def nestR (j : D) (f : D → D → D) : List D → D
  | [] => j
  | [a] => a
  | a :: l => f a (nestR j f l)

/-- The meaning of an operator on the values of its operands; the operands of `===`, and of `=` in the symbolic realm,
are symbolic values. -/
def Sem.infix (I : Sem D) (r : Realm) (op : Op) (vs : List D) : D :=
  match op, r with
  | .hardEq, r => I.chain r (I.hardEq1 r) vs
  | .eq, .ev => I.chain .ev (fun a b => I.M.fn .eq [a, b]) vs
  | .eq, .sym => I.chain .sym (I.hardEq1 .sym) vs
  | .neq, .ev => I.M.fn .not [I.chain .ev (fun a b => I.M.fn .eq [a, b]) vs]
  | .neq, .sym => I.M.fn .taNot [I.chain .sym (I.hardEq1 .sym) vs]
  | .iff, .ev => I.chain .ev (fun a b => I.M.fn .eq [a, b]) vs
  | .iff, .sym => I.chain .sym (fun a b => I.M.fn .taAnd [I.M.fn .taImp [a, b], I.M.fn .taImp [b, a]]) vs
  | .implies, .ev => nestR I.junk (fun a b => I.M.fn .imp [a, b]) vs
  | .implies, .sym => nestR I.junk (fun a b => I.M.fn .taImp [a, b]) vs
  | .and, r => I.conj r vs
  | .or, r => I.disj r vs

/-- The realm of the operands. -/
def opRealm (r : Realm) : Op → Realm
  | .hardEq => .sym
  | _ => r

/-- The declared function of a name, `true`, `false` and `not` being overloaded on the realm. -/
def funOf (E : Env) (r : Realm) (f : String) : Option FInfo :=
  if f ∈ ["true", "True"] then some ⟨if r = .sym then .taTrue else .tru, .fixed [] (if r = .sym then .condition else .bool), false⟩
  else if f ∈ ["false", "False"] then some ⟨if r = .sym then .taFalse else .fls, .fixed [] (if r = .sym then .condition else .bool), false⟩
  else if f = "not" then
    let s := if r = .sym then Srt.condition else .bool
    some ⟨if r = .sym then .taNot else .not, .fixed [s] s, false⟩
  else E.functions f

mutual
/-- The meaning of a term in a realm and a value environment. -/
def den (E : Env) (I : Sem D) (r : Realm) (e : VEnv D) : Tm → D
  | .letin b t₁ t₂ =>
    let s := (E.sorts b.2).getD .index
    den E I r ((b.1, s, den E I (argRealm r s) e t₁) :: e) t₂
  | .ite c a b => I.M.fn (if r = .ev then .ite else .taIte) [den E I r e c, den E I r e a, den E I r e b]
  | .find vs c a b =>
    let v := I.symFind ((sorted E vs).map (·.2)) (fun ds => den E I .sym (ext I.junk (sorted E vs) ds e) c)
      (fun ds => den E I .sym (ext I.junk (sorted E vs) ds e) a) (den E I .sym e b)
    if r = .ev then I.evalAt .message v else v
  | .quant k vs b =>
    let q : QKind := if k = .all then .all else .ex
    if r = .ev then
      I.M.ofProp (qSem I.M q ((sorted E vs).map (·.2)) fun ds => I.M.truth (den E I .ev (ext I.junk (sorted E vs) ds e) b))
    else I.symQ q ((sorted E vs).map (·.2)) fun ds => den E I .sym (ext I.junk (sorted E vs) ds e) b
  | .cvar x =>
    match e.lookup x with
    | some p => if r = .ev then I.evalAt p.1 p.2 else p.2
    | none => match funOf E r x with
      | some i => I.appVal r i []
      | none => I.junk
  | .app f args =>
    match funOf E r f with
    | some i => I.appVal r i (dens E I (i.sig.realm.getD r) (sigRealms (i.sig.realm.getD r) i.sig) e args)
    | none => I.junk
  | .infx op ts => I.infix r op (dens E I (opRealm r op) [] e ts)
  | .msg s args =>
    match E.steps s with
    | some c => I.msg s r (dens E I r (c.params.map fun p => argRealm r p.2) e args)
    | none => I.junk
  | .cond s args =>
    match E.steps s with
    | some c => I.cnd s r (dens E I r (c.params.map fun p => argRealm r p.2) e args)
    | none => I.junk
  | .mac m args =>
    match E.macros m with
    | some c => I.mac m r (dens E I r (c.params.map fun p => argRealm r p.2) e args)
    | none => I.junk
/-- The meanings of arguments, each in its realm. -/
def dens (E : Env) (I : Sem D) (r : Realm) (rs : List Realm) (e : VEnv D) : List Tm → List D
  | [] => []
  | t :: l => den E I (rs.headD r) e t :: dens E I r rs.tail e l
end

/-- The values of macros, messages and conditions are those of their bodies, with the parameters valued to the
arguments and, in steps, `in` to the input at the step. -/
structure Sem.Ok (I : Sem D) (E : Env) : Prop where
  mac : ∀ m c, E.macros m = some c → ∀ r vs, vs.length = c.params.length →
    I.mac m r vs = den E I r (ext I.junk c.params vs []) c.body
  msg : ∀ s c i, E.steps s = some c → E.functions s = some i → ∀ r vs, vs.length = c.params.length →
    I.msg s r vs = den E I r
      (ext I.junk (c.params ++ [("in", .message)]) (vs ++ [I.M.fn .input [I.M.fn i.sym vs]]) []) c.message
  cnd : ∀ s c i, E.steps s = some c → E.functions s = some i → ∀ r vs, vs.length = c.params.length →
    I.cnd s r vs = den E I r
      (ext I.junk (c.params ++ [("in", .message)]) (vs ++ [I.M.fn .input [I.M.fn i.sym vs]]) []) c.condition

/-- Give the variables of a block the values of a list. -/
def setMany (j : D) (ρ : Valn D) : List Var → List D → Valn D
  | [], _ => ρ
  | v :: l, ds => setMany j (ρ.set v.id (ds.headD j)) l ds.tail

/-- The functions created for symbolic quantifiers and `find`s mean what their content says. -/
def Sem.Real (I : Sem D) (tbl : List TAQ) : Prop :=
  ∀ (n : Nat) (q : TAQ), tbl[n]? = some q → match q with
    | .quant k bs fr b => ∀ ρ : Valn D, I.M.fn (.taq n) (fr.map fun v => ρ v.id) =
        I.symQ k (bs.map Var.sort) fun ds => b.eval I.M (setMany I.junk ρ bs ds)
    | .find bs fr c l r => ∀ ρ : Valn D, I.M.fn (.taq n) (fr.map fun v => ρ v.id) =
        I.symFind (bs.map Var.sort) (fun ds => c.eval I.M (setMany I.junk ρ bs ds))
          (fun ds => l.eval I.M (setMany I.junk ρ bs ds)) (r.eval I.M ρ)

end

/-! ## Conditions on terms -/

mutual
/-- The names a term leaves behind in the list of bound variables: those of its `let`s that are under no quantifier or
`find` binder. -/
def leak : Tm → List String
  | .letin b t₁ t₂ => b.1 :: (leak t₁ ++ leak t₂)
  | .ite c a b => leak c ++ (leak a ++ leak b)
  | .find _ _ _ b => leak b
  | .quant _ _ _ => []
  | .cvar _ => []
  | .app _ args => leaks args
  | .infx _ ts => leaks ts
  | .msg _ args => leaks args
  | .cond _ args => leaks args
  | .mac _ args => leaks args
def leaks : List Tm → List String
  | [] => []
  | t :: l => leak t ++ leaks l
end

/-- Arguments with the realm in which each is read. -/
def zipRealms (r : Realm) : List Realm → List Tm → List (Realm × Tm)
  | _, [] => []
  | rs, t :: l => (rs.headD r, t) :: zipRealms r rs.tail l

/-- Terms whose elaboration contains no quantifier. -/
inductive NoBind (E : Env) : Realm → Tm → Prop
  | letin {r b t₁ t₂} : NoBind E r t₁ → NoBind E r t₂ → NoBind E r (.letin b t₁ t₂)
  | ite {r c a b} : NoBind E r c → NoBind E r a → NoBind E r b → NoBind E r (.ite c a b)
  | find {r vs c a b} : NoBind E r (.find vs c a b)
  | quant {k vs b} : NoBind E .sym (.quant k vs b)
  | cvar {r x} : NoBind E r (.cvar x)
  | app {r f i args} : getFun E r f = some i → (∀ a ∈ args, NoBind E (i.sig.realm.getD r) a) → NoBind E r (.app f args)
  | infx {r op ts} : (∀ a ∈ ts, NoBind E (opRealm r op) a) → NoBind E r (.infx op ts)
  | msg {r s c args} : E.steps s = some c → (∀ a ∈ args, NoBind E r a) → NoBind E r c.message → NoBind E r (.msg s args)
  | cond {r s c args} : E.steps s = some c → (∀ a ∈ args, NoBind E r a) → NoBind E r c.condition →
      NoBind E r (.cond s args)
  | mac {r m c args} : E.macros m = some c →
      (∀ z ∈ zipRealms r (c.params.map fun p => argRealm r p.2) args, NoBind E z.1 z.2) → NoBind E r c.body →
      NoBind E r (.mac m args)

/-- The arguments of the signature are all read in the realm `r`. -/
def RealmsOk (r : Realm) (ss : List Srt) : Prop := ∀ s ∈ ss, argRealm r s = r

/-- The argument sorts. -/
def FSig.args : FSig → List Srt
  | .fixed a _ => a
  | _ => []

mutual
/-- `Clean E r L D t`: in the realm `r`, with the names `L` in scope and the names `D` left over from `let`s out of scope:
- if shadowing is allowed, no binder re-uses a name of `L` or `D` or repeats a name,
- a `let` does not mention its own name in its definition, and names of `D` are not used,
- functions, macros and steps have as many arguments as parameters, and binary operators two operands,
- the definition of a `let`, and every argument, belongs to the current realm if its sort has a realm,
- the bodies of the macros and steps used are clean and produce no quantifier. -/
inductive Clean (E : Env) : Realm → List String → List String → Tm → Prop
  | letin {r L D x s so t₁ t₂} : E.sorts s = some so → argRealm r so = r → (E.shadowing = true → x ∉ L ∧ x ∉ D) →
      Clean E r L (x :: D) t₁ → Clean E r (x :: L) (leak t₁ ++ D) t₂ → Clean E r L D (.letin (x, s) t₁ t₂)
  | ite {r L D c a b} : Clean E r L D c → Clean E r L (leak c ++ D) a → Clean E r L (leak a ++ (leak c ++ D)) b →
      Clean E r L D (.ite c a b)
  | find {r L D vs c a b} : Clean E .sym L D b →
      (E.shadowing = true → (vs.map (·.1)).Nodup ∧ ∀ x ∈ vs.map (·.1), x ∉ L ∧ x ∉ leak b ++ D) →
      Clean E .sym (vs.map (·.1) ++ L) (leak b ++ D) c →
      Clean E .sym (vs.map (·.1) ++ L) (leak c ++ (leak b ++ D)) a → Clean E r L D (.find vs c a b)
  | quant {r L D k vs b} :
      (E.shadowing = true → (vs.map (·.1)).Nodup ∧ ∀ x ∈ vs.map (·.1), x ∉ L ∧ x ∉ D) →
      Clean E r (vs.map (·.1) ++ L) D b → Clean E r L D (.quant k vs b)
  | cvarVar {r L D x} : x ∈ L → Clean E r L D (.cvar x)
  | cvarFun {r L D x} : x ∉ L → x ∉ D → Clean E r L D (.cvar x)
  | app {r L D f i args} : funOf E r f = some i → i.sig.arityOk args.length = true →
      RealmsOk (i.sig.realm.getD r) i.sig.args →
      CleanL E L D (args.map fun t => (i.sig.realm.getD r, t)) → Clean E r L D (.app f args)
  | hardEq2 {r L D a b} : CleanL E L D [(.sym, a), (.sym, b)] → Clean E r L D (.infx .hardEq [a, b])
  | hardEqN {r L D ts} : ts.length ≠ 2 → (∀ t ∈ ts, leak t = []) → (∀ t ∈ ts, Clean E .sym L D t) → Clean E r L D (.infx .hardEq ts)
  | eqEv {L D a b} : CleanL E L D [(.ev, a), (.ev, b)] → Clean E .ev L D (.infx .eq [a, b])
  | eqSym {L D ts} : Clean E .sym L D (.infx .hardEq ts) → Clean E .sym L D (.infx .eq ts)
  | neq {r L D ts} : Clean E r L D (.infx .eq ts) → Clean E r L D (.infx .neq ts)
  | iff {L D a b} : CleanL E L D [(.ev, a), (.ev, b)] → Clean E .ev L D (.infx .iff [a, b])
  | implies {r L D a b} : CleanL E L D [(r, a), (r, b)] → Clean E r L D (.infx .implies [a, b])
  | and {r L D ts} : CleanL E L D (ts.map fun t => (r, t)) → Clean E r L D (.infx .and ts)
  | or {r L D ts} : CleanL E L D (ts.map fun t => (r, t)) → Clean E r L D (.infx .or ts)
  | msg {r L D s i c args} : funOf E r s = some i → E.functions s = some i → E.steps s = some c →
      i.sig = .fixed (c.params.map (·.2)) .step → i.isName = false → args.length = c.params.length →
      RealmsOk r (c.params.map (·.2)) → (c.params.map (·.1) ++ ["in"]).Nodup →
      CleanL E L D (args.map fun t => (r, t)) → Clean E r (c.params.map (·.1) ++ ["in"]) [] c.message →
      NoBind E r c.message → Clean E r L D (.msg s args)
  | cond {r L D s i c args} : funOf E r s = some i → E.functions s = some i → E.steps s = some c →
      i.sig = .fixed (c.params.map (·.2)) .step → i.isName = false → args.length = c.params.length →
      RealmsOk r (c.params.map (·.2)) → (c.params.map (·.1) ++ ["in"]).Nodup →
      CleanL E L D (args.map fun t => (r, t)) → Clean E r (c.params.map (·.1) ++ ["in"]) [] c.condition →
      NoBind E r c.condition → Clean E r L D (.cond s args)
  | mac {r L D m c args} : E.macros m = some c → args.length = c.params.length → (c.params.map (·.1)).Nodup →
      CleanL E L D (zipRealms r (c.params.map fun p => argRealm r p.2) args) →
      Clean E r (c.params.map (·.1)) [] c.body → NoBind E r c.body → Clean E r L D (.mac m args)
/-- Arguments read one after the other. -/
inductive CleanL (E : Env) : List String → List String → List (Realm × Tm) → Prop
  | nil {L D} : CleanL E L D []
  | cons {L D r t l} : Clean E r L D t → CleanL E L (leak t ++ D) l → CleanL E L D ((r, t) :: l)
end

end Prs
end CV
