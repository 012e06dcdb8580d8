/-
The meaning of Squirrel terms and of the terms they are converted to.
-/
import Verif.SquirrelProps
import Verif.SanitizeProps
import Mathlib.Data.List.Forall2
set_option linter.unusedSimpArgs false
set_option linter.unusedVariables false

namespace CV
namespace Sq

/-! ### Specification: the meaning of CryptoVampire terms, symbol by symbol -/

/-- SPECIFICATION. What a term of CryptoVampire is interpreted by: an operation for every function name, operator, macro and binder. -/
structure PStr (D : Type) where
  fn : String → List D → D
  op : Op → List D → D
  ite : D → D → D → D
  quant : AQ → List String → (List D → D) → D
  find : List String → (List D → D) → (List D → D) → D → D
  letin : String → D → (D → D) → D
  msg : String → List D → D
  cond : String → List D → D
  mac : String → List D → D
  junk : D

/-- SPECIFICATION. One more variable. -/
def set1 {D : Type} (e : String → Option D) (x : String) (d : D) : String → Option D := fun y => if y = x then some d else e y

/-- SPECIFICATION. A block of variables, from the outermost to the innermost. -/
def setBnds {D : Type} (j : D) (e : String → Option D) : List String → List D → String → Option D
  | [], _ => e
  | x :: l, ds => setBnds j (set1 e x (ds.headD j)) l ds.tail

section
variable {D : Type} (P : PStr D)

mutual
/-- SPECIFICATION. The meaning of a term. -/
def pev (e : String → Option D) : Tm → D
  | .letin b t₁ t₂ => P.letin b.2 (pev e t₁) fun d => pev (set1 e b.1 d) t₂
  | .ite c a b => P.ite (pev e c) (pev e a) (pev e b)
  | .find vs c a b => P.find (vs.map (·.2)) (fun ds => pev (setBnds P.junk e (vs.map (·.1)) ds) c)
      (fun ds => pev (setBnds P.junk e (vs.map (·.1)) ds) a) (pev e b)
  | .quant k vs b => P.quant k (vs.map (·.2)) fun ds => pev (setBnds P.junk e (vs.map (·.1)) ds) b
  | .cvar x => (e x).getD (P.fn x [])
  | .app f l => P.fn f (pevs e l)
  | .infx o l => P.op o (pevs e l)
  | .msg s l => P.msg s (pevs e l)
  | .cond s l => P.cond s (pevs e l)
  | .mac m l => P.mac m (pevs e l)
def pevs (e : String → Option D) : List Tm → List D
  | [] => []
  | t :: l => pev e t :: pevs e l
end

theorem pevs_eq (e : String → Option D) (l : List Tm) : pevs P e l = l.map (pev P e) := by
  induction l with
  | nil => rfl
  | cons t l ih => simp [pevs, ih]

end

/-! ### Specification: the meaning of Squirrel terms -/

/-- SPECIFICATION. What Squirrel terms are interpreted by: operators, names and actions on their arguments, macros on their arguments and a
timestamp (a global macro also on the values of its inputs), tuples, projections, and binders over types. -/
structure SStr (D : Type) where
  op : Path → List D → D
  nm : Path → List D → D
  act : Path → List D → D
  mac : Path → List D → D → D
  glob : Path → List D → List D → D → D
  tup : List D → D
  proj : Nat → D → D
  quant : AQ → List JTy → (List D → D) → D
  find : List JTy → (List D → D) → (List D → D) → D → D
  junk : D

/-- SPECIFICATION. The variables of a list of bindings. -/
def varsOf (l : List JT) : List JVar := l.filterMap fun | .var v => some v | _ => none

/-- SPECIFICATION. Give values to a block of variables, from the outermost to the innermost. -/
def setVars {D : Type} (j : D) (ρ : String → D) : List JVar → List D → String → D
  | [], _ => ρ
  | v :: l, ds => setVars j (fun x => if x = v.name then ds.headD j else ρ x) l ds.tail

section
variable (C : Ctx) {D : Type} (S : SStr D) (sys : String)

mutual
/-- SPECIFICATION. The meaning of a term in the system `sys`: a `diff` means its branch for that system, and a global macro reads its
inputs in the variables they are declared as. Terms that are never converted have no particular meaning. -/
def sev (ρ : String → D) : JT → D
  | .app f args =>
    match f with
    | .fun_ p => S.op p (sevs ρ args)
    | _ => S.junk
  | .fun_ p => S.op p []
  | .name p args => S.nm p (sevs ρ args)
  | .mac p args ts =>
    match C.macs p with
    | some (.global inputs) => S.glob p (sevs ρ args) (inputs.map fun v => ρ v.name) (sev ρ ts)
    | _ => S.mac p (sevs ρ args) (sev ρ ts)
  | .action p args => S.act p (sevs ρ args)
  | .var v => ρ v.name
  | .letin _ _ _ => S.junk
  | .tuple els => S.tup (sevs ρ els)
  | .proj i b => S.proj i (sev ρ b)
  | .diff ts => (sevD ρ ts).getD S.junk
  | .find vs c s f => S.find ((varsOf vs).map JVar.sort) (fun ds => sev (setVars S.junk ρ (varsOf vs) ds) c)
      (fun ds => sev (setVars S.junk ρ (varsOf vs) ds) s) (sev ρ f)
  | .quant q vs b =>
    match q with
    | .forall_ => S.quant .all ((varsOf vs).map JVar.sort) fun ds => sev (setVars S.junk ρ (varsOf vs) ds) b
    | .exists_ => S.quant .ex ((varsOf vs).map JVar.sort) fun ds => sev (setVars S.junk ρ (varsOf vs) ds) b
    | _ => S.junk
/-- All of them. -/
def sevs (ρ : String → D) : List JT → List D
  | [] => []
  | t :: l => sev ρ t :: sevs ρ l
/-- The branch of the system. -/
def sevD (ρ : String → D) : List (String × JT) → Option D
  | [] => none
  | d :: l => sevP ρ d (sevD ρ l)
/-- One branch. -/
def sevP (ρ : String → D) : String × JT → Option D → Option D
  | (l, t), o => if l = sys then some (sev ρ t) else o
end

theorem sevs_eq (ρ : String → D) (l : List JT) : sevs C S sys ρ l = l.map (sev C S sys ρ) := by
  induction l with
  | nil => rfl
  | cons t l ih => simp [sevs, ih]

end

/-! ### Specification: symbols, and when two of them are confused -/

/-- SPECIFICATION. The symbols of a file. -/
inductive Sym
  | op (p : Path) | nm (p : Path) | mac (p : Path) | glob (p : Path) | act (p : Path)

/-- SPECIFICATION. -/
def Sym.path : Sym → Path
  | .op p | .nm p | .mac p | .glob p | .act p => p

/-- SPECIFICATION. The symbols whose name in CryptoVampire is fixed. -/
def fixedSyms : List String :=
  ["&&", "and", "||", "or", "<=>", "=>", "=", "<>", "<=", "<", ">", "not", "true", "false", "empty", "ø", "happens", "pred", "init", "pair",
    "fst", "snd", "input", "cond", "output", "exec", "fail", "if"]

/-- SPECIFICATION. The symbols that are the same in CryptoVampire. -/
def synonyms : List (List String) := [["&&", "and"], ["||", "or"], ["<=>", "="], ["empty", "ø"]]

/-- SPECIFICATION. Operators and macros, which share their names. -/
def Sym.isFun : Sym → Prop
  | .op _ | .mac _ | .glob _ => True
  | _ => False

/-- SPECIFICATION. Symbols that get the same name: those with the same fixed name, and an operator and a macro with the same path. -/
def Clash (a b : Sym) : Prop :=
  (a.path.toStr ∈ fixedSyms ∧ (a.path.toStr = b.path.toStr ∨ ∃ s ∈ synonyms, a.path.toStr ∈ s ∧ b.path.toStr ∈ s)) ∨
  (a.isFun ∧ b.isFun ∧ a.path = b.path)

section
variable (C : Ctx) {D : Type} (S : SStr D)

/-- SPECIFICATION. What a symbol does to its arguments in CryptoVampire: one that takes a tuple takes its components, a macro takes its
timestamp last, and a global macro its inputs before that. -/
def SStr.val : Sym → List D → D
  | .op p, ds => if takesTuple (C.opArgs p) then S.op p [S.tup ds] else S.op p ds
  | .nm p, ds => if takesTuple (C.nameArgs p) then S.nm p [S.tup ds] else S.nm p ds
  | .mac p, ds => S.mac p ds.dropLast (ds.getLastD S.junk)
  | .glob p, ds =>
    let k := match C.macs p with | some (.global inputs) => inputs.length | _ => 0
    S.glob p (ds.take (ds.length - 1 - k)) ((ds.drop (ds.length - 1 - k)).dropLast) (ds.getLastD S.junk)
  | .act p, ds => S.act p ds

/-- SPECIFICATION. The types whose values are all messages in CryptoVampire. -/
def MsgLike : JTy → Prop
  | .message => True
  | .tuple _ => True
  | .tbase p => C.types p = some false
  | _ => False

/-- SPECIFICATION. The names of base types are read as such. -/
def TyFine : JTy → Prop
  | .tbase p => p.valid = true ∧ p.toStr ∉ fixedSyms
  | _ => True

/-- SPECIFICATION. Types that are the same type in CryptoVampire. -/
def SameTy (s t : JTy) : Prop := s = t ∨ (MsgLike C s ∧ MsgLike C t)

/-- The symbol `pair`. -/
def pairP : Path := ⟨[], "pair"⟩
/-- The symbol `empty`. -/
def emptyP : Path := ⟨[], "empty"⟩
/-- The symbol `fst`. -/
def fstP : Path := ⟨[], "fst"⟩
/-- The symbol `snd`. -/
def sndP : Path := ⟨[], "snd"⟩

/-- SPECIFICATION. The interpretations of the file's symbols `U` for which the conversion is right: symbols that are confused mean the same,
types that are confused range over the same values, and tuples are nested pairs with the last component first. With `pr`, projections undo
that nesting as if the first component were first (which is a different operation: C35). -/
structure Faithful (U : Sym → Prop) (pr : Bool) : Prop where
  valid : ∀ a, U a → a.path.valid = true
  apart : ∀ a b, U a → U b → Clash a b → S.val C a = S.val C b
  quant : ∀ k l l', List.Forall₂ (SameTy C) l l' → S.quant k l = S.quant k l'
  find : ∀ l l', List.Forall₂ (SameTy C) l l' → S.find l = S.find l'
  tup : ∀ l, S.tup l = l.foldl (fun acc d => S.val C (.op pairP) [d, acc]) (S.val C (.op emptyP) [])
  proj : pr = true → ∀ i d, S.proj i d = S.val C (.op fstP) [Nat.repeat (fun d => S.val C (.op sndP) [d]) (i - 1) d]

/-- SPECIFICATION. The variables of a block have names of their own, and types that are read as such. -/
def VarsFine (vs : List JVar) : Prop := ∀ v ∈ vs, v.name ∉ fixedSyms ∧ TyFine v.sort

/-- SPECIFICATION. The terms over the symbols `U` with variables among `Γ`: a symbol that takes a single tuple is applied to one, protocol
macros have no arguments. -/
inductive Over (U : Sym → Prop) (pr : Bool) : List String → JT → Prop
  | var (Γ v) : v.name ∈ Γ → Over U pr Γ (.var v)
  | fun_ (Γ p) : U (.op p) → p.toStr ∉ ["&&", "and", "||", "or", "<=>", "=>", "=", "<>", "if"] → Over U pr Γ (.fun_ p)
  | app (Γ p args) : U (.op p) → takesTuple (C.opArgs p) = false → (∀ a ∈ args, Over U pr Γ a) → Over U pr Γ (.app (.fun_ p) args)
  | appT (Γ p els) : U (.op p) → takesTuple (C.opArgs p) = true → (∀ a ∈ els, Over U pr Γ a) → Over U pr Γ (.app (.fun_ p) [.tuple els])
  | name (Γ p args) : U (.nm p) → takesTuple (C.nameArgs p) = false → (∀ a ∈ args, Over U pr Γ a) → Over U pr Γ (.name p args)
  | nameT (Γ p els) : U (.nm p) → takesTuple (C.nameArgs p) = true → (∀ a ∈ els, Over U pr Γ a) → Over U pr Γ (.name p [.tuple els])
  | mac (Γ p args ts) : U (.mac p) → (∀ vs, C.macs p ≠ some (.global vs)) → (C.macs p = some .protocol → args = []) →
      (∀ a ∈ args, Over U pr Γ a) → Over U pr Γ ts → Over U pr Γ (.mac p args ts)
  | glob (Γ p vs args ts) : U (.glob p) → C.macs p = some (.global vs) → (∀ v ∈ vs, v.name ∈ Γ) →
      (∀ a ∈ args, Over U pr Γ a) → Over U pr Γ ts → Over U pr Γ (.mac p args ts)
  | action (Γ p args) : U (.act p) → (∀ a ∈ args, Over U pr Γ a) → Over U pr Γ (.action p args)
  | tuple (Γ els) : U (.op pairP) → U (.op emptyP) → (∀ a ∈ els, Over U pr Γ a) → Over U pr Γ (.tuple els)
  | proj (Γ i b) : pr = true → U (.op fstP) → U (.op sndP) → Over U pr Γ b → Over U pr Γ (.proj i b)
  | diff (Γ ts) : (∀ d ∈ ts, Over U pr Γ d.2) → Over U pr Γ (.diff ts)
  | find (Γ vs c s f) : VarsFine vs → Over U pr (vs.map JVar.name ++ Γ) c → Over U pr (vs.map JVar.name ++ Γ) s → Over U pr Γ f →
      Over U pr Γ (.find (vs.map .var) c s f)
  | quant (Γ q vs b) : VarsFine vs → Over U pr (vs.map JVar.name ++ Γ) b → Over U pr Γ (.quant q (vs.map .var) b)

/-- SPECIFICATION. The variables in scope have the same values on both sides. -/
def SameEnv (Γ : List String) (ρ : String → D) (e : String → Option D) : Prop :=
  ∀ x ∈ Γ, x ∉ fixedSyms ∧ e (C.san .variable x) = some (ρ x)

/-- SPECIFICATION. Under the name it is given, a symbol is interpreted alike on both sides. -/
structure Agree (U : Sym → Prop) (P : PStr D) : Prop where
  junk : P.junk = S.junk
  sym : ∀ a, U a → match a with
    | .op p => (C.san .function p.toStr = "if" → ∀ x y z, P.ite x y z = S.val C a [x, y, z]) ∧
        (∀ o, C.san .function p.toStr ≠ "if" → Op.get (C.san .function p.toStr) = some o → P.op o = S.val C a) ∧
        (C.san .function p.toStr ≠ "if" → Op.get (C.san .function p.toStr) = none → P.fn (C.san .function p.toStr) = S.val C a)
    | .nm p => (C.san .name p.toStr = "if" → ∀ x y z, P.ite x y z = S.val C a [x, y, z]) ∧
        (∀ o, C.san .name p.toStr ≠ "if" → Op.get (C.san .name p.toStr) = some o → P.op o = S.val C a) ∧
        (C.san .name p.toStr ≠ "if" → Op.get (C.san .name p.toStr) = none → P.fn (C.san .name p.toStr) = S.val C a)
    | .mac p => P.fn (C.san .mac p.toStr) = S.val C a
    | .glob p => P.mac (C.san .mac p.toStr) = S.val C a
    | .act p => P.fn (C.san .step p.toStr) = S.val C a
  quant : ∀ k l ss, (∀ t ∈ l, TyFine t) → seqOpt (l.map (dTy C)) = some ss → P.quant k ss = S.quant k l
  find : ∀ l ss, (∀ t ∈ l, TyFine t) → seqOpt (l.map (dTy C)) = some ss → P.find ss = S.find l

end

/-! ### Every interpretation of the file has a counterpart -/

/-- Where a symbol is looked up. -/
inductive Target
  | fn (s : String) | op (o : Op) | ite | mac (s : String)

/-- For applications. -/
def appTgt (s : String) : Target := if s = "if" then .ite else match Op.get s with | some o => .op o | none => .fn s

section
variable (C : Ctx)

/-- The name of a symbol. -/
def Sym.cv : Sym → String
  | .op p => C.san .function p.toStr
  | .nm p => C.san .name p.toStr
  | .mac p => C.san .mac p.toStr
  | .glob p => C.san .mac p.toStr
  | .act p => C.san .step p.toStr

/-- Where a symbol is looked up. -/
def Sym.tgt : Sym → Target
  | .op p => appTgt (C.san .function p.toStr)
  | .nm p => appTgt (C.san .name p.toStr)
  | .mac p => .fn (C.san .mac p.toStr)
  | .glob p => .mac (C.san .mac p.toStr)
  | .act p => .fn (C.san .step p.toStr)

end

theorem fixed_iff {s : String} : s ∈ fixedSyms ↔ (remap s).isSome = true := by
  have h : fixedSyms = remapped.map (·.1) := by decide +kernel
  rw [h, remap]
  generalize remapped = l
  induction l with
  | nil => simp
  | cons p l ih =>
    simp only [List.map_cons, List.mem_cons, List.lookup_cons, ih]
    by_cases e : s = p.1
    · simp [e]
    · have : (s == p.1) = false := by simpa using e
      simp [e, this]

theorem remap_mem {s r : String} (h : remap s = some r) : (s, r) ∈ remapped := by
  rw [remap] at h
  revert h
  generalize remapped = l
  induction l with
  | nil => simp
  | cons p l ih =>
    rw [List.lookup_cons]
    by_cases e : s == p.1
    · simp only [e]
      intro h
      cases h
      have : s = p.1 := by simpa using e
      subst this
      simp
    · simp only [e]
      intro h
      exact List.mem_cons_of_mem _ (ih h)

theorem syn_of_same : ∀ p ∈ remapped, ∀ q ∈ remapped, (p.2 = q.2 ∨ (Op.get p.2 = Op.get q.2 ∧ (Op.get p.2).isSome = true)) →
    p.1 = q.1 ∨ ∃ s ∈ synonyms, p.1 ∈ s ∧ q.1 ∈ s := by decide +kernel

/-- The spelling of an operator, or of `if`, is not the name of anything else. -/
theorem pref_not_op (k : Kind) (r : String) : Op.get (k.pref ++ r) = none ∧ k.pref ++ r ≠ "if" := by
  have hd : ∀ k : Kind, ∀ a ∈ "if" :: Op.list.flatMap Op.alias, k.pref.toList.isPrefixOf a.toList = false := by
    intro k; cases k <;> decide +kernel
  have hp : k.pref.toList.isPrefixOf (k.pref ++ r).toList = true := by
    rw [String.toList_append, List.isPrefixOf_iff_prefix]; exact List.prefix_append _ _
  constructor
  · cases h : Op.get (k.pref ++ r) with
    | none => rfl
    | some o =>
      have h1 := List.find?_some h
      have h2 := List.mem_of_find?_eq_some h
      have h3 : (k.pref ++ r) ∈ o.alias := by simpa using h1
      have := hd k (k.pref ++ r) (List.mem_cons_of_mem _ (List.mem_flatMap.2 ⟨o, h2, h3⟩))
      rw [hp] at this
      cases this
  · intro e
    have := hd k "if" (by simp)
    rw [← e, hp] at this
    cases this

/-- The kind a symbol is named with. -/
def Sym.kind : Sym → Kind
  | .op _ => .function
  | .nm _ => .name
  | .mac _ => .mac
  | .glob _ => .mac
  | .act _ => .step

section
variable {C : Ctx}

theorem cv_eq (a : Sym) : a.cv C = sanitize C.alnum a.kind a.path.toStr := by cases a <;> rfl

theorem clash_of_cv (hu : C.alnum '_' = false) {a b : Sym} (ha : a.path.valid = true) (hb : b.path.valid = true) (h : a.cv C = b.cv C) :
    a = b ∨ Clash a b := by
  rw [cv_eq, cv_eq] at h
  rcases C37_sanitize hu h with ⟨r, h1, h2⟩ | ⟨_, _, h1, h2⟩
  · exact .inr (.inl ⟨fixed_iff.2 (by rw [h1]; rfl), syn_of_same _ (remap_mem h1) _ (remap_mem h2) (.inl rfl)⟩)
  · have hp := C37_path ha hb h2
    cases a <;> cases b <;> simp only [Sym.path] at hp <;> subst hp <;> simp only [Sym.kind] at h1 <;>
      first
        | exact .inl rfl
        | exact .inr (.inr ⟨trivial, trivial, rfl⟩)
        | exact absurd h1 (by decide)

theorem tgt_cases (a : Sym) : a.tgt C = .fn (a.cv C) ∨ a.tgt C = .mac (a.cv C) ∨
    ∃ r, remap a.path.toStr = some r ∧ a.cv C = r ∧ ((r = "if" ∧ a.tgt C = .ite) ∨ ∃ o, Op.get r = some o ∧ a.tgt C = .op o) := by
  have key : ∀ (k : Kind) (s : String), appTgt (sanitize C.alnum k s) = .fn (sanitize C.alnum k s) ∨
      ∃ r, remap s = some r ∧ sanitize C.alnum k s = r ∧ ((r = "if" ∧ appTgt (sanitize C.alnum k s) = .ite) ∨
        ∃ o, Op.get r = some o ∧ appTgt (sanitize C.alnum k s) = .op o) := by
    intro k s
    cases hr : remap s with
    | none =>
      have : sanitize C.alnum k s = k.pref ++ encodeIfNeeded C.alnum s := by simp only [sanitize, hr]
      obtain ⟨h1, h2⟩ := pref_not_op k (encodeIfNeeded C.alnum s)
      rw [this, appTgt, if_neg h2, h1]
      exact .inl rfl
    | some r =>
      have : sanitize C.alnum k s = r := by simp only [sanitize, hr]
      rw [this, appTgt]
      by_cases hi : r = "if"
      · exact .inr ⟨r, rfl, rfl, .inl ⟨hi, if_pos hi⟩⟩
      · rw [if_neg hi]
        cases ho : Op.get r with
        | none => exact .inl rfl
        | some o => exact .inr ⟨r, rfl, rfl, .inr ⟨o, ho, rfl⟩⟩
  cases a with
  | op p => exact (key .function p.toStr).imp id .inr
  | nm p => exact (key .name p.toStr).imp id .inr
  | mac p => exact .inl rfl
  | glob p => exact .inr (.inl rfl)
  | act p => exact .inl rfl

theorem clash_of_tgt (hu : C.alnum '_' = false) {a b : Sym} (ha : a.path.valid = true) (hb : b.path.valid = true)
    (h : a.tgt C = b.tgt C) : a = b ∨ Clash a b := by
  have same : a.cv C = b.cv C → a = b ∨ Clash a b := clash_of_cv hu ha hb
  have fix : ∀ {r r'}, remap a.path.toStr = some r → remap b.path.toStr = some r' →
      (r = r' ∨ (Op.get r = Op.get r' ∧ (Op.get r).isSome = true)) → Clash a b := fun h1 h2 h3 =>
    .inl ⟨fixed_iff.2 (by rw [h1]; rfl), syn_of_same _ (remap_mem h1) _ (remap_mem h2) h3⟩
  rcases tgt_cases (C := C) a with h3 | h3 | ⟨r, h1, -, ⟨h2, h3⟩ | ⟨o, h2, h3⟩⟩ <;>
    rcases tgt_cases (C := C) b with h3' | h3' | ⟨r', h1', -, ⟨h2', h3'⟩ | ⟨o', h2', h3'⟩⟩ <;>
    simp only [h3, h3', reduceCtorEq, Target.fn.injEq, Target.mac.injEq, Target.op.injEq] at h
  · exact same h
  · exact same h
  · exact .inr (fix h1 h1' (.inl (h2.trans h2'.symm)))
  · exact .inr (fix h1 h1' (.inr ⟨by rw [h2, h2', h], by rw [h2]; rfl⟩))

theorem sameTy_of (hu : C.alnum '_' = false) {s t : JTy} {n : String} (hs : TyFine s) (ht : TyFine t) (h1 : dTy C s = some n)
    (h2 : dTy C t = some n) : SameTy C s t := by
  have base : ∀ p : Path, TyFine (.tbase p) → C.san .sort p.toStr = "sort_" ++ encodeIfNeeded C.alnum p.toStr := by
    intro p hp
    have : remap p.toStr = none := by
      have := mt fixed_iff.2 hp.2
      simpa using this
    simp only [Ctx.san, sanitize, this]
    rfl
  have off : ∀ r a : String, a ∈ ["Message", "Bool", "Step", "index", "Name"] → "sort_" ++ r ≠ a := by
    intro r a ha e
    have hd : ∀ a ∈ ["Message", "Bool", "Step", "index", "Name"], "sort_".toList.isPrefixOf a.toList = false := by decide +kernel
    have := hd a ha
    rw [← e, String.toList_append] at this
    have hp : "sort_".toList.isPrefixOf ("sort_".toList ++ r.toList) = true := by
      rw [List.isPrefixOf_iff_prefix]; exact List.prefix_append _ _
    rw [hp] at this
    cases this
  have both : ∀ p q : Path, TyFine (.tbase p) → TyFine (.tbase q) → C.san .sort p.toStr = C.san .sort q.toStr → p = q := by
    intro p q hp hq h
    rcases C37_sanitize hu h with ⟨r, h1, _⟩ | ⟨_, _, _, h2⟩
    · exact absurd (fixed_iff.2 (by rw [h1]; rfl)) hp.2
    · exact C37_path hp.1 hq.1 h2
  have cls : ∀ s n, TyFine s → dTy C s = some n → (MsgLike C s ∧ n = "Message") ∨ (∃ p, s = .tbase p ∧ n = C.san .sort p.toStr) ∨
      (s = .boolean ∧ n = "Bool") ∨ (s = .timestamp ∧ n = "Step") ∨ (s = .index ∧ n = "index") ∨ (s = .name ∧ n = "Name") := by
    intro s n hf h
    clear hf
    cases s <;> simp only [dTy, Option.some.injEq, reduceCtorEq] at h
    case tbase p =>
      split at h
      · rename_i hc
        cases h
        exact .inl ⟨hc, rfl⟩
      · cases h
        exact .inr (.inl ⟨p, rfl, rfl⟩)
    all_goals subst h; simp [MsgLike]
  rcases cls s n hs h1 with ⟨hm, e⟩ | ⟨p, rfl, e⟩ | ⟨rfl, e⟩ | ⟨rfl, e⟩ | ⟨rfl, e⟩ | ⟨rfl, e⟩ <;>
    rcases cls t n ht h2 with ⟨hm', e'⟩ | ⟨p', rfl, e'⟩ | ⟨rfl, e'⟩ | ⟨rfl, e'⟩ | ⟨rfl, e'⟩ | ⟨rfl, e'⟩ <;>
    first
      | exact .inl rfl
      | exact .inr ⟨hm, hm'⟩
      | exact .inl (congrArg _ (both _ _ hs ht (e.symm.trans e')))
      | (exfalso; rw [base _ ht] at e'; exact off _ _ (by simp) (e'.symm.trans e))
      | (exfalso; rw [base _ hs] at e; exact off _ _ (by simp) (e.symm.trans e'))
      | (exfalso; rw [e] at e'; revert e'; decide)

theorem forall₂_of_seq (hu : C.alnum '_' = false) : ∀ {l l' : List JTy} {ss : List String}, (∀ t ∈ l, TyFine t) → (∀ t ∈ l', TyFine t) →
    seqOpt (l.map (dTy C)) = some ss → seqOpt (l'.map (dTy C)) = some ss → List.Forall₂ (SameTy C) l l'
  | [], [], _, _, _, _, _ => .nil
  | [], t :: l', ss, _, _, h, h' => by
    simp only [List.map_nil, seqOpt, Option.some.injEq] at h
    subst h
    cases ht : dTy C t <;> simp [seqOpt, ht] at h'
  | t :: l, [], ss, _, _, h, h' => by
    simp only [List.map_nil, seqOpt, Option.some.injEq] at h'
    subst h'
    cases ht : dTy C t <;> simp [seqOpt, ht] at h
  | t :: l, t' :: l', ss, h1, h2, h, h' => by
    cases ht : dTy C t with
    | none => simp [seqOpt, ht] at h
    | some a =>
      cases ht' : dTy C t' with
      | none => simp [seqOpt, ht'] at h'
      | some b =>
        simp only [List.map_cons, ht, ht', seqOpt, Option.map_eq_some_iff] at h h'
        obtain ⟨r, hr, rfl⟩ := h
        obtain ⟨r', hr', he⟩ := h'
        cases he
        exact .cons (sameTy_of hu (h1 t (by simp)) (h2 t' (by simp)) ht ht')
          (forall₂_of_seq hu (fun x hx => h1 x (by simp [hx])) (fun x hx => h2 x (by simp [hx])) hr hr')

open Classical in
/-- The interpretation of what is looked up at `T`. -/
noncomputable def at_ {D : Type} (C : Ctx) (S : SStr D) (U : Sym → Prop) (T : Target) : List D → D :=
  if h : ∃ a, U a ∧ a.tgt C = T then S.val C h.choose else fun _ => S.junk

open Classical in
/-- The interpretation of the names of the file. -/
noncomputable def mirror {D : Type} (C : Ctx) (S : SStr D) (U : Sym → Prop) : PStr D where
  fn s := at_ C S U (.fn s)
  op o := at_ C S U (.op o)
  ite x y z := at_ C S U .ite [x, y, z]
  quant k ss := if h : ∃ l : List JTy, (∀ t ∈ l, TyFine t) ∧ seqOpt (l.map (dTy C)) = some ss then S.quant k h.choose else fun _ => S.junk
  find ss := if h : ∃ l : List JTy, (∀ t ∈ l, TyFine t) ∧ seqOpt (l.map (dTy C)) = some ss then S.find h.choose else fun _ _ _ => S.junk
  letin _ d f := f d
  msg _ _ := S.junk
  cond _ _ := S.junk
  mac s := at_ C S U (.mac s)
  junk := S.junk

theorem at_tgt (hu : C.alnum '_' = false) {D : Type} {S : SStr D} {U : Sym → Prop} {pr : Bool} (hS : Faithful C S U pr) {a : Sym} (ha : U a) :
    at_ C S U (a.tgt C) = S.val C a := by
  have hx : ∃ b, U b ∧ b.tgt C = a.tgt C := ⟨a, ha, rfl⟩
  rw [at_, dif_pos hx]
  rcases clash_of_tgt hu (hS.valid _ hx.choose_spec.1) (hS.valid a ha) hx.choose_spec.2 with h | h
  · rw [h]
  · exact hS.apart _ _ hx.choose_spec.1 ha h

/-- **C79.** Whatever the operators, names, macros and actions of a Squirrel file mean, the names they are given in CryptoVampire can be
interpreted alike: no two symbols are confused, except for those that Squirrel's own conventions identify. -/
theorem C79_interpretation (hu : C.alnum '_' = false) {D : Type} {S : SStr D} {U : Sym → Prop} {pr : Bool} (hS : Faithful C S U pr) :
    ∃ P : PStr D, Agree C S U P ∧ ∀ s d f, P.letin s d f = f d := by
  refine ⟨mirror C S U, ⟨rfl, fun a ha => ?_, fun k l ss hl h => ?_, fun l ss hl h => ?_⟩, fun _ _ _ => rfl⟩
  · have h := at_tgt hu hS ha
    have app : ∀ s, a.tgt C = appTgt s → (s = "if" → ∀ x y z, (mirror C S U).ite x y z = S.val C a [x, y, z]) ∧
        (∀ o, s ≠ "if" → Op.get s = some o → (mirror C S U).op o = S.val C a) ∧
        (s ≠ "if" → Op.get s = none → (mirror C S U).fn s = S.val C a) := by
      intro s hs
      rw [hs, appTgt] at h
      refine ⟨fun e x y z => ?_, fun o e ho => ?_, fun e ho => ?_⟩
      · rw [if_pos e] at h
        exact congrFun h _
      · rw [if_neg e, ho] at h
        exact h
      · rw [if_neg e, ho] at h
        exact h
    cases a with
    | op p => exact app _ rfl
    | nm p => exact app _ rfl
    | mac p => exact h
    | glob p => exact h
    | act p => exact h
  · have hx : ∃ l : List JTy, (∀ t ∈ l, TyFine t) ∧ seqOpt (l.map (dTy C)) = some ss := ⟨l, hl, h⟩
    simp only [mirror, dif_pos hx]
    exact hS.quant k _ _ (forall₂_of_seq hu hx.choose_spec.1 hl hx.choose_spec.2 h)
  · have hx : ∃ l : List JTy, (∀ t ∈ l, TyFine t) ∧ seqOpt (l.map (dTy C)) = some ss := ⟨l, hl, h⟩
    simp only [mirror, dif_pos hx]
    exact hS.find _ _ (forall₂_of_seq hu hx.choose_spec.1 hl hx.choose_spec.2 h)

/-! ### Converted terms mean what they meant -/

theorem seqOpt_map {α β : Type} {f : α → Option β} : ∀ {l : List α} {xs : List β}, seqOpt (l.map f) = some xs →
    List.Forall₂ (fun a x => f a = some x) l xs
  | [], xs, h => by simp only [List.map_nil, seqOpt, Option.some.injEq] at h; subst h; exact .nil
  | a :: l, xs, h => by
    cases ha : f a with
    | none => simp [seqOpt, ha] at h
    | some x =>
      simp only [List.map_cons, ha, seqOpt, Option.map_eq_some_iff] at h
      obtain ⟨r, hr, rfl⟩ := h
      exact .cons ha (seqOpt_map hr)

theorem varsOf_map (vs : List JVar) : varsOf (vs.map .var) = vs := by
  induction vs with
  | nil => rfl
  | cons v l ih => simp only [varsOf, List.map_cons, List.filterMap_cons] at ih ⊢; rw [ih]

theorem selL_var (sys : String) (vs : List JVar) : selL sys (vs.map .var) = vs.map .var := by
  induction vs with
  | nil => rfl
  | cons v l ih => simp [selL, sel, ih]

theorem san_var_inj (hu : C.alnum '_' = false) {x y : String} (hx : x ∉ fixedSyms) (h : C.san .variable x = C.san .variable y) : x = y := by
  rcases C37_sanitize hu h with ⟨r, h1, _⟩ | ⟨_, _, _, h2⟩
  · exact absurd (fixed_iff.2 (by rw [h1]; rfl)) hx
  · exact h2

theorem sameEnv_set (hu : C.alnum '_' = false) {D : Type} (j : D) : ∀ (vs : List JVar) {Γ : List String} {ρ : String → D}
    {e : String → Option D} (ds : List D), (∀ v ∈ vs, v.name ∉ fixedSyms) → SameEnv C Γ ρ e →
    SameEnv C (vs.map JVar.name ++ Γ) (setVars j ρ vs ds) (setBnds j e (vs.map fun v => C.san .variable v.name) ds)
  | [], _, _, _, _, _, h => h
  | v :: vs, Γ, ρ, e, ds, hv, h => by
    have h1 : SameEnv C (v.name :: Γ) (fun x => if x = v.name then ds.headD j else ρ x)
        (set1 e (C.san .variable v.name) (ds.headD j)) := by
      intro x hx
      by_cases e' : x = v.name
      · subst e'
        exact ⟨hv v (by simp), by simp [set1]⟩
      · have hx' : x ∈ Γ := by simpa [e'] using hx
        refine ⟨(h x hx').1, ?_⟩
        have : C.san .variable x ≠ C.san .variable v.name := fun he => e' (san_var_inj hu (h x hx').1 he)
        simp [set1, e', this, (h x hx').2]
    have h2 := sameEnv_set hu j vs ds.tail (fun w hw => hv w (by simp [hw])) h1
    intro x hx
    refine h2 x ?_
    simp only [List.map_cons, List.cons_append, List.mem_cons, List.mem_append] at hx ⊢
    tauto

theorem binds_of (hu : C.alnum '_' = false) : ∀ {vs : List JVar} {bs : List Bnd}, seqOpt ((vs.map JT.var).map (dBind C)) = some bs →
    bs.map (·.1) = (vs.map fun v => C.san .variable v.name) ∧ seqOpt ((vs.map JVar.sort).map (dTy C)) = some (bs.map (·.2))
  | [], bs, h => by simp only [List.map_nil, seqOpt, Option.some.injEq] at h; subst h; exact ⟨rfl, rfl⟩
  | v :: vs, bs, h => by
    cases ht : dTy C v.sort with
    | none => simp [seqOpt, dBind, ht] at h
    | some s =>
      simp only [List.map_cons, dBind, ht, Option.map_some, seqOpt, Option.map_eq_some_iff] at h
      obtain ⟨r, hr, rfl⟩ := h
      obtain ⟨h1, h2⟩ := binds_of hu hr
      refine ⟨by simp [h1], ?_⟩
      simp only [List.map_cons, ht, seqOpt, h2, Option.map_some]

theorem pev_mkApp {D : Type} {P : PStr D} {e : String → Option D} {f : String} {l : List Tm} {x : Tm} {v : List D → D}
    (h1 : f = "if" → ∀ x y z, P.ite x y z = v [x, y, z]) (h2 : ∀ o, f ≠ "if" → Op.get f = some o → P.op o = v)
    (h3 : f ≠ "if" → Op.get f = none → P.fn f = v) (h : dApp f l = some x) : pev P e x = v (l.map (pev P e)) := by
  by_cases hf : f = "if"
  · simp only [dApp, hf, if_true] at h
    match l, h with
    | [c, a, b], h =>
      cases h
      simp only [pev, List.map_cons, List.map_nil]
      exact h1 hf _ _ _
  · simp only [dApp, hf, if_false, Option.some.injEq] at h
    subst h
    rw [Tm.mkApp]
    cases ho : Op.get f with
    | none => simp only [pev, pevs_eq]; rw [h3 hf ho]
    | some o => simp only [pev, pevs_eq]; rw [h2 o hf ho]

theorem means_list {D : Type} {P : PStr D} {S : SStr D} {sys : String} {e : String → Option D} {ρ : String → D} {args : List JT} {xs : List Tm}
    (ih : ∀ a ∈ args, ∀ x, direct C (sel sys a) = some x → pev P e x = sev C S sys ρ a)
    (h : seqOpt (directL C (selL sys args)) = some xs) : xs.map (pev P e) = args.map (sev C S sys ρ) := by
  rw [directL_eq, selL_eq, List.map_map] at h
  have := seqOpt_map h
  clear h
  induction this with
  | nil => rfl
  | @cons a x l xs hx _ ih' =>
    simp only [List.map_cons]
    rw [ih a (by simp) x hx, ih' fun b hb => ih b (by simp [hb])]

theorem sevD_eq {D : Type} (S : SStr D) (sys : String) (ρ : String → D) (ts : List (String × JT)) :
    sevD C S sys ρ ts = (ts.find? fun d => d.1 = sys).map fun d => sev C S sys ρ d.2 := by
  induction ts with
  | nil => rfl
  | cons d l ih =>
    obtain ⟨a, t⟩ := d
    by_cases h : a = sys <;> simp [sevD, sevP, ih, h]

theorem pev_tuple {D : Type} {P : PStr D} {S : SStr D} {U : Sym → Prop} (hA : Agree C S U P) (h1 : U (.op pairP)) (h2 : U (.op emptyP))
    (e : String → Option D) (xs : List Tm) :
    pev P e (dTuple xs) = (xs.map (pev P e)).foldl (fun acc d => S.val C (.op pairP) [d, acc]) (S.val C (.op emptyP) []) := by
  have n1 : C.san .function pairP.toStr = "pair" := by
    simp only [Ctx.san, sanitize, show remap pairP.toStr = some "pair" by decide +kernel]
  have n2 : C.san .function emptyP.toStr = "empty" := by
    simp only [Ctx.san, sanitize, show remap emptyP.toStr = some "empty" by decide +kernel]
  have p1 : P.fn "pair" = S.val C (.op pairP) := by
    have := (hA.sym _ h1).2.2
    rw [n1] at this
    exact this (by decide) (by decide +kernel)
  have p2 : P.fn "empty" = S.val C (.op emptyP) := by
    have := (hA.sym _ h2).2.2
    rw [n2] at this
    exact this (by decide) (by decide +kernel)
  have go : ∀ (xs : List Tm) (acc : Tm), pev P e (xs.foldl (fun acc t => .app "pair" [t, acc]) acc) =
      (xs.map (pev P e)).foldl (fun acc d => S.val C (.op pairP) [d, acc]) (pev P e acc) := by
    intro xs
    induction xs with
    | nil => intro acc; rfl
    | cons x xs ih => intro acc; simp only [List.foldl_cons, List.map_cons]; rw [ih]; simp [pev, pevs, p1]
  rw [dTuple, go]
  simp [pev, pevs, p2]

theorem pev_proj {D : Type} {P : PStr D} {S : SStr D} {U : Sym → Prop} (hA : Agree C S U P) (h1 : U (.op fstP)) (h2 : U (.op sndP))
    (e : String → Option D) (i : Nat) (x : Tm) :
    pev P e (dProj i x) = S.val C (.op fstP) [Nat.repeat (fun d => S.val C (.op sndP) [d]) (i - 1) (pev P e x)] := by
  have n1 : C.san .function fstP.toStr = "fst" := by
    simp only [Ctx.san, sanitize, show remap fstP.toStr = some "fst" by decide +kernel]
  have n2 : C.san .function sndP.toStr = "snd" := by
    simp only [Ctx.san, sanitize, show remap sndP.toStr = some "snd" by decide +kernel]
  have p1 : P.fn "fst" = S.val C (.op fstP) := by
    have := (hA.sym _ h1).2.2
    rw [n1] at this
    exact this (by decide) (by decide +kernel)
  have p2 : P.fn "snd" = S.val C (.op sndP) := by
    have := (hA.sym _ h2).2.2
    rw [n2] at this
    exact this (by decide) (by decide +kernel)
  have go : ∀ n, pev P e (Nat.repeat (fun t => Tm.app "snd" [t]) n x) = Nat.repeat (fun d => S.val C (.op sndP) [d]) n (pev P e x) := by
    intro n
    induction n with
    | zero => rfl
    | succ n ih => simp only [Nat.repeat, pev, pevs, p2, ih]
  simp only [dProj, pev, pevs, p1, go]

theorem op_name {p : Path} (h : p.toStr ∉ ["&&", "and", "||", "or", "<=>", "=>", "=", "<>", "if"]) :
    C.san .function p.toStr ≠ "if" ∧ Op.get (C.san .function p.toStr) = none := by
  simp only [Ctx.san, sanitize]
  cases hr : remap p.toStr with
  | none => exact ⟨(pref_not_op _ _).2, (pref_not_op _ _).1⟩
  | some r =>
    have : ∀ q ∈ remapped, q.1 ∉ ["&&", "and", "||", "or", "<=>", "=>", "=", "<>", "if"] → q.2 ≠ "if" ∧ Op.get q.2 = none := by
      decide +kernel
    exact this _ (remap_mem hr) h

theorem means (hu : C.alnum '_' = false) {D : Type} {P : PStr D} {S : SStr D} {U : Sym → Prop} {pr : Bool} (hS : Faithful C S U pr)
    (hA : Agree C S U P) (sys : String) {Γ : List String} {t : JT} (h : Over C U pr Γ t) : ∀ (x : Tm) (ρ : String → D) (e : String → Option D),
    direct C (sel sys t) = some x → SameEnv C Γ ρ e → pev P e x = sev C S sys ρ t := by
  induction h with
  | var Γ v hv =>
    intro x ρ e hx he
    simp only [sel, direct, Option.some.injEq] at hx
    subst hx
    simp only [pev, sev, (he _ hv).2, Option.getD_some]
  | fun_ Γ p hp ho =>
    intro x ρ e hx he
    simp only [sel, direct] at hx
    split at hx
    · rename_i ha
      cases hx
      have := (hA.sym _ hp).2.2 (op_name ho).1 (op_name ho).2
      simp only [pev, pevs, this, sev, SStr.val, ha, takesTuple]
      rfl
    · cases hx
  | app Γ p args hp ht _ ih =>
    intro x ρ e hx he
    simp only [sel, direct, ht, Bool.false_eq_true, if_false] at hx
    obtain ⟨xs, hxs, hx⟩ := Option.bind_eq_some_iff.1 hx
    obtain ⟨a1, a2, a3⟩ := hA.sym _ hp
    rw [pev_mkApp a1 a2 a3 hx, means_list (fun a ha x hx => ih a ha x ρ e hx he) hxs]
    simp only [sev, sevs_eq, SStr.val, ht, Bool.false_eq_true, if_false]
  | appT Γ p els hp ht _ ih =>
    intro x ρ e hx he
    simp only [sel, selL, direct, directHd, directTup, ht, if_true, Option.getD_some] at hx
    obtain ⟨xs, hxs, hx⟩ := Option.bind_eq_some_iff.1 hx
    obtain ⟨a1, a2, a3⟩ := hA.sym _ hp
    rw [pev_mkApp a1 a2 a3 hx, means_list (fun a ha x hx => ih a ha x ρ e hx he) hxs]
    simp only [sev, sevs, sevs_eq, SStr.val, ht, if_true]
  | name Γ p args hp ht _ ih =>
    intro x ρ e hx he
    simp only [sel, direct, ht, Bool.false_eq_true, if_false] at hx
    obtain ⟨xs, hxs, hx⟩ := Option.bind_eq_some_iff.1 hx
    obtain ⟨a1, a2, a3⟩ := hA.sym _ hp
    rw [pev_mkApp a1 a2 a3 hx, means_list (fun a ha x hx => ih a ha x ρ e hx he) hxs]
    simp only [sev, sevs_eq, SStr.val, ht, Bool.false_eq_true, if_false]
  | nameT Γ p els hp ht _ ih =>
    intro x ρ e hx he
    simp only [sel, selL, direct, directHd, directTup, ht, if_true, Option.getD_some] at hx
    obtain ⟨xs, hxs, hx⟩ := Option.bind_eq_some_iff.1 hx
    obtain ⟨a1, a2, a3⟩ := hA.sym _ hp
    rw [pev_mkApp a1 a2 a3 hx, means_list (fun a ha x hx => ih a ha x ρ e hx he) hxs]
    simp only [sev, sevs, sevs_eq, SStr.val, ht, if_true]
  | mac Γ p args ts hp hg hpr _ _ ih iht =>
    intro x ρ e hx he
    have hs := hA.sym _ hp
    have hl : ∀ xs, seqOpt (directL C (selL sys args)) = some xs → xs.map (pev P e) = args.map (sev C S sys ρ) :=
      fun xs h => means_list (fun a ha x hx => ih a ha x ρ e hx he) h
    have key : ∀ ys, seqOpt (directL C (selL sys args) ++ [direct C (sel sys ts)]) = some ys →
        pev P e (.app (C.san .mac p.toStr) ys) = S.mac p (args.map (sev C S sys ρ)) (sev C S sys ρ ts) := by
      intro ys hys
      obtain ⟨a, b, ha, hb, rfl⟩ := seqOpt_append _ _ _ hys
      cases hts : direct C (sel sys ts) with
      | none => rw [hts] at hb; simp [seqOpt] at hb
      | some y =>
        rw [hts] at hb
        simp only [seqOpt, Option.map_some, Option.some.injEq] at hb
        subst hb
        simp only [pev, pevs_eq, hs, SStr.val, List.map_append, hl a ha, List.map_cons, List.map_nil, iht y ρ e hts he]
        simp
    simp only [sel, direct] at hx
    simp only [sev, sevs_eq]
    rcases hm : C.macs p with _ | _ | _ | _ | inputs
    · simp [hm] at hx
    · have : args = [] := hpr hm
      subst this
      simp only [hm, Option.map_eq_some_iff] at hx
      obtain ⟨ys, hys, rfl⟩ := hx
      exact key ys (by simpa [selL, directL] using hys)
    · simp only [hm, Option.map_eq_some_iff] at hx
      obtain ⟨ys, hys, rfl⟩ := hx
      exact key ys hys
    · simp only [hm, Option.map_eq_some_iff] at hx
      obtain ⟨ys, hys, rfl⟩ := hx
      exact key ys hys
    · exact absurd hm (hg inputs)
  | glob Γ p vs args ts hp hm hv _ _ ih iht =>
    intro x ρ e hx he
    have hs := hA.sym _ hp
    simp only [sel, direct, hm, Option.map_eq_some_iff] at hx
    obtain ⟨ys, hys, rfl⟩ := hx
    obtain ⟨ab, c, hab, hc, rfl⟩ := seqOpt_append _ _ _ hys
    obtain ⟨a, b, ha, hb, rfl⟩ := seqOpt_append _ _ _ hab
    have ea : a.map (pev P e) = args.map (sev C S sys ρ) := means_list (fun a ha x hx => ih a ha x ρ e hx he) ha
    have eb : b.map (pev P e) = vs.map fun v => ρ v.name := by
      have := seqOpt_map hb
      clear hb hys hab hm
      induction this with
      | nil => rfl
      | @cons v y l ys hy _ ih' =>
        simp only [Option.some.injEq] at hy
        subst hy
        simp only [List.map_cons]
        rw [ih' fun w hw => hv w (by simp [hw])]
        simp only [pev, (he _ (hv v (by simp))).2, Option.getD_some]
    cases hts : direct C (sel sys ts) with
    | none => rw [hts] at hc; simp [seqOpt] at hc
    | some y =>
      rw [hts] at hc
      simp only [seqOpt, Option.map_some, Option.some.injEq] at hc
      subst hc
      simp only [pev, pevs_eq, hs, SStr.val, hm, List.map_append, ea, eb, List.map_cons, List.map_nil, iht y ρ e hts he, sev, sevs_eq]
      have hl : (List.map (sev C S sys ρ) args ++ List.map (fun v => ρ v.name) vs ++ [sev C S sys ρ ts]).length - 1 - vs.length = args.length := by
        simp
      rw [hl]
      have h1 : (List.map (sev C S sys ρ) args ++ List.map (fun v => ρ v.name) vs ++ [sev C S sys ρ ts]).take args.length =
          List.map (sev C S sys ρ) args := by
        rw [List.append_assoc, List.take_left' (by simp)]
      have h2 : (List.map (sev C S sys ρ) args ++ List.map (fun v => ρ v.name) vs ++ [sev C S sys ρ ts]).drop args.length =
          List.map (fun v => ρ v.name) vs ++ [sev C S sys ρ ts] := by
        rw [List.append_assoc, List.drop_left' (by simp)]
      rw [h1, h2]
      simp
  | action Γ p args hp _ ih =>
    intro x ρ e hx he
    have hs := hA.sym _ hp
    simp only [sel, direct, Option.map_eq_some_iff] at hx
    obtain ⟨xs, hxs, rfl⟩ := hx
    simp only [pev, pevs_eq, hs, SStr.val, means_list (fun a ha x hx => ih a ha x ρ e hx he) hxs, sev, sevs_eq]
  | tuple Γ els h1 h2 _ ih =>
    intro x ρ e hx he
    simp only [sel, direct, Option.map_eq_some_iff] at hx
    obtain ⟨xs, hxs, rfl⟩ := hx
    rw [pev_tuple hA h1 h2, means_list (fun a ha x hx => ih a ha x ρ e hx he) hxs, ← hS.tup]
    simp only [sev, sevs_eq]
  | proj Γ i b hpr h1 h2 _ ih =>
    intro x ρ e hx he
    simp only [sel, direct, Option.map_eq_some_iff] at hx
    obtain ⟨y, hy, rfl⟩ := hx
    rw [pev_proj hA h1 h2, ih y ρ e hy he, ← hS.proj hpr]
    simp only [sev]
  | diff Γ ts _ ih =>
    intro x ρ e hx he
    simp only [sel, selD_eq] at hx
    simp only [sev, sevD_eq]
    cases hf : ts.find? fun d => d.1 = sys with
    | none => simp [hf, direct] at hx
    | some d =>
      simp only [hf, Option.map_some, Option.getD_some] at hx ⊢
      exact ih d (List.mem_of_find?_eq_some hf) x ρ e hx he
  | find Γ vs c s f hv _ _ _ ihc ihs ihf =>
    intro x ρ e hx he
    simp only [sel, direct, selL_var] at hx
    obtain ⟨c', hc, hx⟩ := Option.bind_eq_some_iff.1 hx
    obtain ⟨s', hs, hx⟩ := Option.bind_eq_some_iff.1 hx
    obtain ⟨f', hf, hx⟩ := Option.bind_eq_some_iff.1 hx
    obtain ⟨bs, hbs, rfl⟩ := Option.map_eq_some_iff.1 hx
    obtain ⟨b1, b2⟩ := binds_of hu hbs
    simp only [pev, sev, varsOf_map, b1, hA.junk]
    rw [hA.find (vs.map JVar.sort) _ (by simpa using fun v hv' => (hv v hv').2) b2, ihf f' ρ e hf he]
    congr 1 <;> funext ds
    · exact ihc c' _ _ hc (sameEnv_set hu _ vs ds (fun v hv' => (hv v hv').1) he)
    · exact ihs s' _ _ hs (sameEnv_set hu _ vs ds (fun v hv' => (hv v hv').1) he)
  | quant Γ q vs b hv _ ih =>
    intro x ρ e hx he
    have key : ∀ k bs c, seqOpt ((vs.map JT.var).map (dBind C)) = some bs → direct C (sel sys b) = some c →
        pev P e (.quant k bs c) = S.quant k (vs.map JVar.sort) fun ds => sev C S sys (setVars S.junk ρ vs ds) b := by
      intro k bs c hbs hc
      obtain ⟨b1, b2⟩ := binds_of hu hbs
      simp only [pev, b1, hA.junk]
      rw [hA.quant k (vs.map JVar.sort) _ (by simpa using fun v hv' => (hv v hv').2) b2]
      congr 1
      funext ds
      exact ih c _ _ hc (sameEnv_set hu _ vs ds (fun v hv' => (hv v hv').1) he)
    simp only [sel, selL_var] at hx
    cases q with
    | forall_ =>
      simp only [direct] at hx
      obtain ⟨c, hc, hx⟩ := Option.bind_eq_some_iff.1 hx
      obtain ⟨bs, hbs, rfl⟩ := Option.map_eq_some_iff.1 hx
      simp only [sev, varsOf_map]
      exact key _ _ _ hbs hc
    | exists_ =>
      simp only [direct] at hx
      obtain ⟨c, hc, hx⟩ := Option.bind_eq_some_iff.1 hx
      obtain ⟨bs, hbs, rfl⟩ := Option.map_eq_some_iff.1 hx
      simp only [sev, varsOf_map]
      exact key _ _ _ hbs hc
    | seq => simp [direct] at hx
    | lambda => simp [direct] at hx

/-- **C79.** A converted term means what the term meant in each of the systems of the file. -/
theorem C79_meaning (hu : C.alnum '_' = false) {D : Type} {P : PStr D} {S : SStr D} {U : Sym → Prop} {pr : Bool} (hS : Faithful C S U pr)
    (hA : Agree C S U P) {Ps : List String} (hP : Ps.Pairwise (· < ·)) {t : JT} (hw : wf C Ps t) {r : AoO Tm} (hr : convert C .any t = .ok r)
    (i : Nat) (hi : i < Ps.length) {Γ : List String} (ht : Over C U pr Γ t) :
    ∃ x, r.get i = some x ∧ ∀ (ρ : String → D) (e : String → Option D), SameEnv C Γ ρ e → pev P e x = sev C S Ps[i] ρ t := by
  have h := good C Ps (by omega) hP t hw .any (Or.inl rfl)
  rw [hr] at h
  obtain ⟨x, hx1, hx2⟩ := h.2 i hi
  have e : Ps.getD i "" = Ps[i] := by simp [List.getD, List.getElem?_eq_getElem hi]
  simp only [e] at hx2
  exact ⟨x, hx1, fun ρ e he => means hu hS hA _ ht x ρ e hx2 he⟩

/-- **C79.** Whatever the symbols of a Squirrel file mean, there is one interpretation of CryptoVampire's names under which every term of
the file, converted, means in each system what it meant. -/
theorem C79_conversion (hu : C.alnum '_' = false) {D : Type} {S : SStr D} {U : Sym → Prop} {pr : Bool} (hS : Faithful C S U pr)
    {Ps : List String} (hP : Ps.Pairwise (· < ·)) :
    ∃ P : PStr D, Agree C S U P ∧ (∀ s d f, P.letin s d f = f d) ∧
      ∀ t Γ, wf C Ps t → Over C U pr Γ t → ∀ r, convert C .any t = .ok r → ∀ i (hi : i < Ps.length),
        ∃ x, r.get i = some x ∧ ∀ (ρ : String → D) (e : String → Option D), SameEnv C Γ ρ e → pev P e x = sev C S Ps[i] ρ t := by
  obtain ⟨P, h1, h2⟩ := C79_interpretation hu hS
  exact ⟨P, h1, h2, fun t Γ hw ht r hr i hi => C79_meaning hu hS h1 hP hw hr i hi ht⟩

end

/-! ### Samples -/

/-- A sample interpretation: terms are written out, tuples as nested pairs. -/
def exStr : SStr String where
  op p ds := p.toStr ++ "(" ++ String.intercalate "," ds ++ ")"
  nm p ds := p.toStr ++ "(" ++ String.intercalate "," ds ++ ")"
  act p ds := p.toStr ++ "(" ++ String.intercalate "," ds ++ ")"
  mac p ds t := p.toStr ++ "(" ++ String.intercalate "," ds ++ ")@" ++ t
  glob p ds is t := p.toStr ++ "(" ++ String.intercalate "," (ds ++ is) ++ ")@" ++ t
  tup l := l.foldl (fun acc d => pairP.toStr ++ "(" ++ String.intercalate "," [d, acc] ++ ")") (emptyP.toStr ++ "(" ++ String.intercalate "," [] ++ ")")
  proj _ d := d
  quant _ l f := f (l.map fun _ => "?")
  find l f g d := f (l.map fun _ => "?") ++ g (l.map fun _ => "?") ++ d
  junk := ""

/-- The symbols of the sample. -/
def exSyms (a : Sym) : Prop := a = .op ⟨[], "g"⟩ ∨ a = .op ⟨[], "f"⟩ ∨ a = .op pairP ∨ a = .op emptyP

theorem exStr_faithful : Faithful exCtx exStr exSyms false where
  valid := by rintro a (rfl | rfl | rfl | rfl) <;> decide +kernel
  apart := by
    have n : ∀ a, exSyms a → ∀ b, exSyms b → Clash a b → a = b := by
      have d : ∀ x ∈ ["g", "f", "pair", "empty"], ∀ y ∈ ["g", "f", "pair", "empty"],
          ((x ∈ fixedSyms ∧ (x = y ∨ ∃ s ∈ synonyms, x ∈ s ∧ y ∈ s)) ∨ x = y) → x = y := by decide +kernel
      have e : ∀ a, exSyms a → a = .op ⟨[], a.path.symb⟩ ∧ a.path.toStr = a.path.symb ∧ a.path.symb ∈ ["g", "f", "pair", "empty"] := by
        rintro a (rfl | rfl | rfl | rfl) <;> exact ⟨rfl, by decide +kernel, by decide +kernel⟩
      intro a ha b hb h
      obtain ⟨a1, a2, a3⟩ := e a ha
      obtain ⟨b1, b2, b3⟩ := e b hb
      rw [a1, b1, d _ a3 _ b3]
      rcases h with ⟨h, h'⟩ | ⟨_, _, h⟩
      · left; rw [← a2, ← b2]; exact ⟨h, h'⟩
      · right; rw [h]
    intro a b ha hb h
    rw [n a ha b hb h]
  quant := by
    intro k l l' h
    have : l.length = l'.length := h.length_eq
    funext f
    simp [exStr, List.map_const', this]
  find := by
    intro l l' h
    have : l.length = l'.length := h.length_eq
    funext f g d
    simp [exStr, List.map_const', this]
  tup := by intro l; rfl
  proj := by simp

/-- The sample term: `g(diff(A: x, B: diff(A: y, B: z)), w)`. -/
theorem exTerm_over : Over exCtx exSyms false ["x", "y", "z", "w"] exTerm := by
  refine .app _ _ _ (Or.inl rfl) (by decide +kernel) ?_
  simp only [List.mem_cons, List.not_mem_nil, or_false]
  rintro a (rfl | rfl)
  · refine .diff _ _ ?_
    simp only [List.mem_cons, List.not_mem_nil, or_false]
    rintro d (rfl | rfl)
    · refine .diff _ _ ?_
      simp only [List.mem_cons, List.not_mem_nil, or_false]
      rintro d (rfl | rfl) <;> exact .var _ _ (by decide)
    · exact .var _ _ (by decide)
  · exact .var _ _ (by decide)

/-- The sample term means `g(z,w)` in the system `B`, and so does its conversion. -/
example : ∃ P : PStr String, Agree exCtx exStr exSyms P ∧ ∃ r x, convert exCtx .any exTerm = .ok r ∧ r.get 1 = some x ∧
    ∀ e, SameEnv exCtx ["x", "y", "z", "w"] (fun s => s) e → pev P e x = "g(z,w)" := by
  obtain ⟨P, h1, -, h⟩ := C79_conversion (C := exCtx) (by decide) exStr_faithful (Ps := ["A", "B"]) (by simp)
  obtain ⟨r, hr, -⟩ := C36_total exCtx (Ps := ["A", "B"]) (by decide) (by simp) exTerm_wf exTerm_supp
  obtain ⟨x, hx, hm⟩ := h exTerm _ exTerm_wf exTerm_over r hr 1 (by decide)
  refine ⟨P, h1, r, x, hr, hx, fun e he => ?_⟩
  rw [hm _ e he]
  decide +kernel

/-- The environment of the sample exists. -/
example : SameEnv exCtx ["x", "y", "z", "w"] (fun s => s) fun v => if v = "var_x" then some "x" else if v = "var_y" then some "y" else
    if v = "var_z" then some "z" else if v = "var_w" then some "w" else none := by
  unfold SameEnv; decide +kernel

/-- A file with a type of keys. -/
def keyCtx : Ctx where
  alnum c := c.isAlphanum
  types p := if p.symb = "key" then some false else none
  opArgs p := if p.symb = "=" then some [.message, .message] else some []
  nameArgs _ := none
  macs _ := none

/-- Two messages, one of which is a key. -/
def keyStr : SStr Bool where
  op p ds := if p.symb = "=" then ds[0]? == ds[1]? else false
  nm _ _ := false
  act _ _ := false
  mac _ _ _ := false
  glob _ _ _ _ := false
  tup _ := false
  proj _ _ := false
  quant k l f := match k, l with
    | .all, [.tbase _] => f [false]
    | .all, _ => f [false] && f [true]
    | .ex, [.tbase _] => f [false]
    | .ex, _ => f [false] || f [true]
  find _ _ _ _ := false
  junk := false

/-- `∀ x : s, x = k`. -/
def allIs (s : JTy) : JT := .quant .forall_ [.var ⟨"x", s⟩] (.app (.fun_ ⟨[], "="⟩) [.var ⟨"x", s⟩, .fun_ ⟨[], "k"⟩])

/-- **C79, where it fails.** A quantifier over a type of messages is converted to one over all messages: `∀ x : key, x = k` and
`∀ x : message, x = k` become the same term, although one may hold and the other not. -/
theorem C79_subtype_counterexample :
    ∃ x, convert keyCtx .any (allIs (.tbase ⟨[], "key"⟩)) = .ok (.any x) ∧ convert keyCtx .any (allIs .message) = .ok (.any x) ∧
      ∀ sys ρ, sev keyCtx keyStr sys ρ (allIs (.tbase ⟨[], "key"⟩)) = true ∧ sev keyCtx keyStr sys ρ (allIs .message) = false := by
  refine ⟨.quant .all [(keyCtx.san .variable "x", "Message")] (.infx .eq [.cvar (keyCtx.san .variable "x"), .app (keyCtx.san .function "k") []]),
    ?_, ?_, fun sys ρ => ⟨rfl, rfl⟩⟩
  · with_unfolding_all rfl
  · with_unfolding_all rfl

end Sq
end CV
