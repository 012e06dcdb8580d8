/-
What the problem of a system consists of: the statements made of a Squirrel file, and what they mean.
-/
import Verif.SqTopProps
import Verif.SqMean
set_option linter.unusedSimpArgs false
set_option linter.unusedVariables false

namespace CV
namespace Sq
open Txt2 (Stm Asg Appl AKind)

/-! ### Specification: the statements made of a file -/

section
variable (C : Ctx)

/-- SPECIFICATION. The name of a type. -/
inductive TyOf : JTy → String → Prop
  | message : TyOf .message "Message"
  | boolean : TyOf .boolean "Bool"
  | timestamp : TyOf .timestamp "Step"
  | index : TyOf .index "index"
  | name : TyOf .name "Name"
  | tuple (l) : TyOf (.tuple l) "Message"
  | msgs (p) : C.types p = some false → TyOf (.tbase p) "Message"
  | base (p) : C.types p ≠ some false → TyOf (.tbase p) (C.san .sort p.toStr)

/-- SPECIFICATION. A list of parameters. -/
def Params (vs : List JVar) (bs : List Bnd) : Prop :=
  List.Forall₂ (fun v b => b.1 = C.san .variable v.name ∧ TyOf C v.sort b.2) vs bs

/-- SPECIFICATION. The types of arguments of a symbol: those of the components when the last argument is a tuple. -/
def ArgsOf (args : List JTy) (l : List String) : Prop :=
  (∃ pre els, args = pre ++ [.tuple els] ∧ List.Forall₂ (TyOf C) els l) ∨
  ((∀ pre els, args ≠ pre ++ [.tuple els]) ∧ List.Forall₂ (TyOf C) args l)

/-- SPECIFICATION. A variable occurs in a term (other than as a binder). -/
inductive Occ (v : JVar) : JT → Prop
  | var : Occ v (.var v)
  | appF (f args) : Occ v f → Occ v (.app f args)
  | app (f args a) : a ∈ args → Occ v a → Occ v (.app f args)
  | name (p args a) : a ∈ args → Occ v a → Occ v (.name p args)
  | macT (p args ts) : Occ v ts → Occ v (.mac p args ts)
  | mac (p args ts a) : a ∈ args → Occ v a → Occ v (.mac p args ts)
  | action (p args a) : a ∈ args → Occ v a → Occ v (.action p args)
  | letE (x e b) : Occ v e → Occ v (.letin x e b)
  | letB (x e b) : Occ v b → Occ v (.letin x e b)
  | tuple (els a) : a ∈ els → Occ v a → Occ v (.tuple els)
  | proj (i b) : Occ v b → Occ v (.proj i b)
  | diff (ts d) : d ∈ ts → Occ v d.2 → Occ v (.diff ts)
  | findC (vs c s f) : Occ v c → Occ v (.find vs c s f)
  | findS (vs c s f) : Occ v s → Occ v (.find vs c s f)
  | findF (vs c s f) : Occ v f → Occ v (.find vs c s f)
  | quant (q vs b) : Occ v b → Occ v (.quant q vs b)

/-- The symbol `input`. -/
def inputP : Path := ⟨[], "input"⟩
/-- The symbol `output`. -/
def outputP : Path := ⟨[], "output"⟩
/-- The symbol `cond`. -/
def condP : Path := ⟨[], "cond"⟩
/-- The symbol `&&`. -/
def andP : Path := ⟨[], "&&"⟩
/-- The symbol `=>`. -/
def impP : Path := ⟨[], "=>"⟩
/-- The symbol `true`. -/
def trueP : Path := ⟨[], "true"⟩
/-- The symbol `=`. -/
def eqP : Path := ⟨[], "="⟩

variable (d : Dump)

/-- SPECIFICATION. The inputs of the first macro of an action: `vs` are those that are used. -/
def HasInputs (a : JAct) (vs : List JVar) : Prop :=
  ∃ pre g post inputs indices ts body, a.globals = pre ++ g :: post ∧ (∀ q ∈ pre, find d.macs q = none) ∧
    find d.macs g = some (.global inputs indices ts body) ∧ vs = inputs.filter fun v => decide (v.name ≠ "$dummy")

variable {D : Type} (S : SStr D) (P : PStr D) (sys : String)

/-- SPECIFICATION. The inputs of the first macro of the action have their values: counting from the last one, the `k`-th is the input of the
action whose control flow is the first `k` steps of that of `a`. -/
def InputsAt (a : JAct) (ρ : String → D) : Prop :=
  ∀ vs, HasInputs d a vs → ∀ k v, vs.reverse[k]? = some v → ∀ b ∈ d.actions, b.action = a.action.take k →
    ρ v.name = S.mac inputP [] (S.act b.name (b.indices.map fun v => ρ v.name))

/-- SPECIFICATION. A term means another. -/
def Means (Γ : List JVar) (t : JT) (x : Tm) : Prop :=
  ∀ ρ e, SameEnv C (Γ.map JVar.name) ρ e → pev P e x = sev C S sys ρ t

/-- SPECIFICATION. A term of an action means another. -/
def MeansAt (a : JAct) (t : JT) (x : Tm) : Prop :=
  ∀ ρ e, SameEnv C (a.indices.map JVar.name) ρ e → InputsAt d S a ρ → pev P e x = sev C S sys ρ t

/-- SPECIFICATION. The assignment of an update: its variables are those of its arguments that are not indices of the action. -/
def UpdOf (a : JAct) (u : Upd) (s : Asg) : Prop :=
  ∃ args vs, s.cell = .app (C.san .mac u.symb.toStr) args ∧ Params C vs (s.fresh.getD []) ∧
    (∀ v, v ∈ vs ↔ (∃ t ∈ u.args, Occ v t) ∧ v ∉ a.indices) ∧
    List.Forall₂ (Means C S P sys (vs ++ a.indices)) u.args args ∧ Means C S P sys (vs ++ a.indices) u.body s.term

/-- SPECIFICATION. The step of an action. -/
def StepOf (a : JAct) (s : Stm) : Prop :=
  ∃ args cond msg asgs, s = .step (C.san .step a.name.toStr) args cond msg (some asgs) [] ∧ Params C a.indices args ∧
    MeansAt C d S P sys a a.cond cond ∧ MeansAt C d S P sys a a.output msg ∧ List.Forall₂ (UpdOf C S P sys a) a.updates asgs

/-- SPECIFICATION. The definition of a macro. -/
def MacOf (p : Path) (vs : List JVar) (body : JT) (s : Stm) : Prop :=
  ∃ args t, s = .mac (C.san .function p.toStr) args t [] ∧ Params C vs args ∧ Means C S P sys vs body t

/-- SPECIFICATION. The macros of a file: name, parameters and body. -/
def globals : List (Path × List JVar × JT) :=
  d.macs.filterMap fun
    | (p, .global inputs indices ts body) => some (p, indices ++ (inputs.filter fun v => decide (v.name ≠ "$dummy")) ++ [ts], body)
    | _ => none

/-- SPECIFICATION. The operators of a file that have a definition. -/
def concretes : List (Path × List JVar × JT) :=
  d.ops.filterMap fun
    | (p, ⟨_, .concrete args body⟩) => some (p, args, body)
    | _ => none

/-- SPECIFICATION. The meaning of the goal of a file. -/
def goal (ρ : String → D) : D :=
  S.quant .all (d.vars.map JVar.sort) fun ds =>
    let ρ' := setVars S.junk ρ d.vars ds
    S.op impP [(d.hyps.map (sev C S sys ρ')).foldl (fun acc h => S.op andP [acc, h]) (S.op trueP []), sev C S sys ρ' d.query]

/-- SPECIFICATION. The cells of a file: name, type and parameters. -/
def cellsOf : List (Path × JTy × List JVar) :=
  d.macs.filterMap fun
    | (p, .state sort vars) => some (p, sort, vars)
    | _ => none

/-- SPECIFICATION. The declaration of a cell. -/
def CellOf (c : Path × JTy × List JVar) (s : Stm) : Prop :=
  ∃ args out, s = .cell (C.san .mac c.1.toStr) args out [] ∧ List.Forall₂ (fun v => TyOf C v.sort) c.2.2 args ∧ TyOf C c.2.1 out

/-- SPECIFICATION. The declaration of a name. -/
def NameOf (n : Path × FunTy) (s : Stm) : Prop := ∃ args, s = .func (C.san .name n.1.toStr) args "Name" [] ∧ ArgsOf C n.2.args args

/-- SPECIFICATION. The declaration of an operator. -/
def FunOf (f : Path × OpData) (s : Stm) : Prop :=
  ∃ args out, s = .func (C.san .function f.1.toStr) args out [] ∧ ArgsOf C f.2.sort.args args ∧ TyOf C f.2.sort.out out

/-- SPECIFICATION. The operators that are declared: those that are abstract, have no type variables, and are not known to CryptoVampire. -/
def Declared (f : Path × OpData) : Prop :=
  f.1.toStr ∉ ["diff", ">", ">=", "qatt", "&&", "||", "and", "or", "<=>", "=>", "=", "<=", "<", "not", "true", "false", "empty", "ø", "happens", "pred",
    "if"] ∧ (∀ args body, f.2.defn ≠ .concrete args body) ∧ f.2.sort.vars = []

/-- SPECIFICATION. The assumptions made on an operator. -/
inductive CryptoOf : Path × OpData → Stm → Prop
  | hash (p ty l) : CryptoOf (p, ⟨ty, .hash l⟩) (.crypto "euf-cma" [C.san .function p.toStr, "verify_" ++ C.san .function p.toStr] ["hmac"])
  | verify (p ty l) : CryptoOf (p, ⟨ty, .hash l⟩) (.func ("verify_" ++ C.san .function p.toStr) ["Message", "Message", "Message"] "Bool" [])
  | enc (p ty q l) : CryptoOf (p, ⟨ty, .senc (q :: l)⟩) (.crypto "int_ctxt" [C.san .function p.toStr, C.san .function q.toStr, "fail"] [])
  | sign (p ty q) : CryptoOf (p, ⟨ty, .checkSign [q]⟩) (.crypto "euf-cma" [C.san .function q.toStr, C.san .function p.toStr] [])
  | signK (p ty q k l) : CryptoOf (p, ⟨ty, .checkSign (q :: k :: l)⟩)
      (.crypto "euf-cma" [C.san .function q.toStr, C.san .function p.toStr, C.san .function k.toStr] [])

/-- SPECIFICATION. The types that can be quantified over. -/
def IndexType (e : Path × List SortKind) : Prop := (SortKind.finite ∈ e.2 ∧ SortKind.fixed ∈ e.2) ∨ SortKind.enum ∈ e.2

/-- SPECIFICATION. The statement of an ordering, for all values of its variables: `<`, `>` or `<>` between its steps. -/
inductive OrdOf : Ord → Stm → Prop
  | lt (v a b) : OrdOf ⟨v, a, b, .lt⟩ (.order .all v none a .lt b [])
  | gt (v a b) : OrdOf ⟨v, a, b, .gt⟩ (.order .all v none a .gt b [])
  | incompatible (v a b) : OrdOf ⟨v, a, b, .incompatible⟩ (.order .all v none a .incompatible b [])

/-- SPECIFICATION. The problem of a system: types, cells, names, operators, macros, definitions, axioms of pairs, steps, orders (see C38),
cryptographic assumptions and the query, each as it stands in the file. -/
structure Contents (l : List Stm) (types cells names funs macs defs axs steps ords crypto : List Stm) (q : Tm) : Prop where
  all : l = types ++ cells ++ (names ++ funs) ++ (macs ++ defs) ++ axs ++ steps ++ ords ++ crypto ++ [.assert .query q []]
  types : ∃ ts : List (Path × List SortKind), (∃ sub : ts.Sublist d.types, ∀ e ∈ d.types, e ∈ ts ↔ IndexType e) ∧
    types = (ts.map fun e => Stm.type (C.san .sort e.1.toStr) []) ++ [.type "index" []]
  cells : List.Forall₂ (CellOf C) (cellsOf d) cells
  names : ∃ ns : List (Path × FunTy), (∃ sub : ns.Sublist d.names, ∀ e ∈ d.names, e ∈ ns ↔ e.2.vars = []) ∧ List.Forall₂ (NameOf C) ns names
  funs : ∃ fs : List (Path × OpData), (∃ sub : fs.Sublist d.ops, ∀ e ∈ d.ops, e ∈ fs ↔ Declared e) ∧ List.Forall₂ (FunOf C) fs funs
  macs : List.Forall₂ (fun e => MacOf C S P sys e.1 e.2.1 e.2.2) (globals d) macs
  defs : List.Forall₂ (fun e => MacOf C S P sys e.1 e.2.1 e.2.2) (concretes d) defs
  axs : axs = pairAxioms.map fun t => .assert .assert t []
  steps : List.Forall₂ (StepOf C d S P sys) d.actions steps
  ords : List.Forall₂ (fun r s => ∃ o, r = .ok o ∧ OrdOf o s) (orderLemmas C (d.actions.map JAct.act)) ords
  crypto : ∀ s, s ∈ crypto ↔ s ∈ ["nonce", "memory_cell", "unfolding"].map (fun n => Stm.crypto n [] []) ∨ ∃ e ∈ d.ops, CryptoOf C e s
  query : ∀ ρ e, pev P e q = goal C d S sys ρ

/-- SPECIFICATION. The files whose terms are over the symbols `U`: distinct actions have distinct control flows, the terms of an action use its
indices and the inputs of its first macro, an update the variables of its arguments and the indices. -/
structure OverDump (U : Sym → Prop) (pr : Bool) : Prop where
  flows : d.actions.Pairwise fun a b => a.action ≠ b.action
  acts : ∀ a ∈ d.actions, U (.act a.name)
  input : U (.mac inputP) ∧ ∀ vs, C.macs inputP ≠ some (.global vs)
  isMac : (C.macs inputP).isSome
  names : ∀ a ∈ d.actions, ∀ vs, HasInputs d a vs → ∀ v ∈ vs, v.name ∉ fixedSyms
  cond : ∀ a ∈ d.actions, ∀ vs, (HasInputs d a vs ∨ (vs = [] ∧ ∀ ws, ¬ HasInputs d a ws)) →
    Over C U pr (vs.map JVar.name ++ a.indices.map JVar.name) a.cond
  output : ∀ a ∈ d.actions, ∀ vs, (HasInputs d a vs ∨ (vs = [] ∧ ∀ ws, ¬ HasInputs d a ws)) →
    Over C U pr (vs.map JVar.name ++ a.indices.map JVar.name) a.output
  updArgs : ∀ a ∈ d.actions, ∀ u ∈ a.updates, ∀ t ∈ u.args, ∀ Γ, (∀ v, (∃ t ∈ u.args, Occ v t) ∨ v ∈ a.indices → v.name ∈ Γ) → Over C U pr Γ t
  updBody : ∀ a ∈ d.actions, ∀ u ∈ a.updates, ∀ Γ, (∀ v, (∃ t ∈ u.args, Occ v t) ∨ v ∈ a.indices → v.name ∈ Γ) → Over C U pr Γ u.body
  macs : ∀ e ∈ globals d, Over C U pr (e.2.1.map JVar.name) e.2.2
  ops : ∀ e ∈ concretes d, Over C U pr (e.2.1.map JVar.name) e.2.2
  logic : ∀ p ∈ [andP, impP, trueP], U (.op p) ∧ takesTuple (C.opArgs p) = false
  vars : VarsFine d.vars
  hyps : ∀ t ∈ d.hyps, Over C U pr (d.vars.map JVar.name) t
  query : Over C U pr (d.vars.map JVar.name) d.query

end

/-! ### The pieces -/

section
variable {C : Ctx} {d : Dump} {Ps : List String}

theorem val_ty (t : JTy) : val (convTy C t) = dTy C t := by
  rw [convTy_eq]; cases dTy C t <;> rfl

theorem tyOf_of {t : JTy} {s : String} (h : dTy C t = some s) : TyOf C t s := by
  cases t with
  | message => cases h; exact .message
  | boolean => cases h; exact .boolean
  | timestamp => cases h; exact .timestamp
  | index => cases h; exact .index
  | name => cases h; exact .name
  | tuple l => cases h; exact .tuple l
  | unsupported => cases h
  | tbase p =>
    simp only [dTy] at h
    split at h
    · rename_i hp; cases h; exact .msgs p hp
    · rename_i hp; cases h; exact .base p hp

theorem val_var (v : JVar) : val (bindVar C v) = (dTy C v.sort).map fun s => (C.san .variable v.name, s) := by
  rw [bindVar, val_rbind, val_ty]; cases dTy C v.sort <;> rfl

theorem params_of {vs : List JVar} {bs : List Bnd} (h : seqOpt (vs.map fun v => val (bindVar C v)) = some bs) : Params C vs bs := by
  refine (seqOpt_map h).imp fun v b hb => ?_
  rw [val_var, Option.map_eq_some_iff] at hb
  obtain ⟨s, hs, rfl⟩ := hb
  exact ⟨rfl, tyOf_of hs⟩

theorem tys_of {ts : List JTy} {l : List String} (h : seqOpt (ts.map fun t => val (convTy C t)) = some l) : List.Forall₂ (TyOf C) ts l :=
  (seqOpt_map h).imp fun t s hs => tyOf_of (by rwa [val_ty] at hs)

theorem fa2 {α β : Type} {R R' : α → β → Prop} {l : List α} {m : List β} (h : List.Forall₂ R l m) (hi : ∀ a ∈ l, ∀ b, R a b → R' a b) :
    List.Forall₂ R' l m := by
  induction h with
  | nil => exact .nil
  | @cons a b l m hab _ ih => exact .cons (hi a (by simp) b hab) (ih fun a ha => hi a (by simp [ha]))

theorem val_collect {α β : Type} {rs : List (Res (AoO α))} {k : List (AoO α) → Res (AoO β)} {x : β}
    (h : val ((Res.collect rs).bind k) = some x) : ∃ as, rs = as.map .ok ∧ val (k as) = some x := by
  cases hc : Res.collect rs with
  | err => rw [hc] at h; cases h
  | panic => rw [hc] at h; cases h
  | ok l => rw [hc] at h; exact ⟨l, collect_inv hc, h⟩

theorem collect_each {α : Type} (l : List α) : Res.collect (l.map Res.ok) = .ok l := by
  induction l with
  | nil => rfl
  | cons a l ih => simp [Res.collect, Res.bind, ih]

theorem val_transpose {α : Type} {as : List (AoO α)} {m : List α} (h : val (AoO.transposeIter as) = some m) :
    seqOpt ((as.map Res.ok).map val) = some m := by
  rw [← val_gather, gather, collect_each]
  exact h

theorem sel_sel {U : Sym → Prop} {pr : Bool} (sys : String) {Γ : List String} {t : JT} (h : Over C U pr Γ t) : sel sys (sel sys t) = sel sys t := by
  have lst : ∀ l : List JT, (∀ a ∈ l, sel sys (sel sys a) = sel sys a) → selL sys (selL sys l) = selL sys l := by
    intro l hl
    simp only [selL_eq, List.map_map]
    exact List.map_congr_left hl
  induction h with
  | var | fun_ => rfl
  | app Γ p args _ _ _ ih => simp only [sel, lst args ih]
  | appT Γ p els _ _ _ ih => simp only [sel, selL, lst els ih]
  | name Γ p args _ _ _ ih => simp only [sel, lst args ih]
  | nameT Γ p els _ _ _ ih => simp only [sel, selL, lst els ih]
  | mac Γ p args ts _ _ _ _ _ ih iht => simp only [sel, lst args ih, iht]
  | glob Γ p vs args ts _ _ _ _ _ ih iht => simp only [sel, lst args ih, iht]
  | action Γ p args _ _ ih => simp only [sel, lst args ih]
  | tuple Γ els _ _ _ ih => simp only [sel, lst els ih]
  | proj Γ i b _ _ _ _ ih => simp only [sel, ih]
  | diff Γ ts _ ih =>
    simp only [sel, selD_eq]
    cases hf : ts.find? fun d => d.1 = sys with
    | none => rfl
    | some d => exact ih d (List.mem_of_find?_eq_some hf)
  | find Γ vs c s f _ _ _ _ ihc ihs ihf => simp only [sel, selL_var, ihc, ihs, ihf]
  | quant Γ q vs b _ _ ih => simp only [sel, selL_var, ih]

theorem sel_wf {U : Sym → Prop} {pr : Bool} {sys : String} (hsys : sys ∈ Ps) {Γ : List String} {t : JT} (h : Over C U pr Γ t) :
    wf C Ps t → wf C [sys] (sel sys t) := by
  have lst : ∀ l : List JT, (∀ a ∈ l, wf C Ps a → wf C [sys] (sel sys a)) → wfL C Ps l → wfL C [sys] (selL sys l) := by
    intro l hl hw
    rw [wfL_iff] at hw ⊢
    rw [selL_eq]
    simp only [List.mem_map]
    rintro _ ⟨a, ha, rfl⟩
    exact hl a ha (hw a ha)
  induction h with
  | var | fun_ => intro _; trivial
  | app Γ p args _ ht _ ih =>
    intro hw
    simp only [wf, sel] at hw ⊢
    exact ⟨lst args ih hw.1, fun h => by rw [ht] at h; cases h⟩
  | appT Γ p els _ ht _ ih =>
    intro hw
    simp only [wf, sel, selL, wfL] at hw ⊢
    exact ⟨⟨lst els ih hw.1.1, trivial⟩, fun _ => trivial⟩
  | name Γ p args _ ht _ ih =>
    intro hw
    simp only [wf, sel] at hw ⊢
    exact ⟨lst args ih hw.1, fun h => by rw [ht] at h; cases h⟩
  | nameT Γ p els _ ht _ ih =>
    intro hw
    simp only [wf, sel, selL, wfL] at hw ⊢
    exact ⟨⟨lst els ih hw.1.1, trivial⟩, fun _ => trivial⟩
  | mac Γ p args ts _ _ _ _ _ ih iht => intro hw; simp only [wf, sel] at hw ⊢; exact ⟨lst args ih hw.1, iht hw.2⟩
  | glob Γ p vs args ts _ _ _ _ _ ih iht => intro hw; simp only [wf, sel] at hw ⊢; exact ⟨lst args ih hw.1, iht hw.2⟩
  | action Γ p args _ _ ih => intro hw; simp only [wf, sel] at hw ⊢; exact lst args ih hw
  | tuple Γ els _ _ _ ih => intro hw; simp only [wf, sel] at hw ⊢; exact lst els ih hw
  | proj Γ i b _ _ _ _ ih => intro hw; simp only [wf, sel] at hw ⊢; exact ih hw
  | diff Γ ts _ ih =>
    intro hw
    simp only [wf] at hw
    simp only [sel, selD_eq]
    cases hf : ts.find? fun d => d.1 = sys with
    | none =>
      exfalso
      obtain ⟨d, hd, he⟩ := List.mem_map.1 (hw.1.mem_iff.2 hsys)
      have := List.find?_eq_none.1 hf d hd
      simp [he] at this
    | some d =>
      have hm := List.mem_of_find?_eq_some hf
      exact ih d hm ((wfD_iff C Ps ts).1 hw.2 d hm)
  | find Γ vs c s f _ _ _ _ ihc ihs ihf =>
    intro hw; simp only [wf, sel] at hw ⊢; exact ⟨ihc hw.1, ihs hw.2.1, ihf hw.2.2⟩
  | quant Γ q vs b _ _ ih => intro hw; simp only [wf, sel] at hw ⊢; exact ih hw

theorem val_term {U : Sym → Prop} {pr : Bool} {sys : String} (hsys : sys ∈ Ps) {Γ : List String} {t : JT} (h : Over C U pr Γ t) (hw : wf C Ps t)
    {x : Tm} (hx : val (convert C .any (sel sys t)) = some x) : direct C (sel sys t) = some x := by
  have g := good C [sys] (by simp) (by simp) (sel sys t) (sel_wf hsys h hw) .any (Or.inl rfl)
  rw [val_some hx] at g
  obtain ⟨y, h1, h2⟩ := g.2 0 (by simp)
  simp only [AoO.get, Option.some.injEq] at h1
  subst h1
  change direct C (sel sys (sel sys t)) = some x at h2
  rwa [sel_sel sys h] at h2

theorem occ_of (v : JVar) {t : JT} (h : Occ v t) : v ∈ jvars t := by
  have lst : ∀ (l : List JT) a, a ∈ l → v ∈ jvars a → v ∈ jvarsL l := by
    intro l
    induction l with
    | nil => simp
    | cons b l ih =>
      intro a ha hv
      simp only [jvarsL, List.mem_append]
      rcases List.mem_cons.1 ha with rfl | ha
      · exact Or.inr hv
      · exact Or.inl (ih a ha hv)
  have lstD : ∀ (l : List (String × JT)) d, d ∈ l → v ∈ jvars d.2 → v ∈ jvarsD l := by
    intro l
    induction l with
    | nil => simp
    | cons b l ih =>
      rintro ⟨s, a⟩ ha hv
      simp only [jvarsD, List.mem_append]
      rcases List.mem_cons.1 ha with rfl | ha
      · exact Or.inr hv
      · exact Or.inl (ih _ ha hv)
  induction h with
  | var => simp [jvars]
  | appF f args _ ih => simp [jvars, ih]
  | app f args a ha _ ih => simp [jvars, lst _ _ ha ih]
  | name p args a ha _ ih => simp [jvars, lst _ _ ha ih]
  | macT p args ts _ ih => simp [jvars, ih]
  | mac p args ts a ha _ ih => simp [jvars, lst _ _ ha ih]
  | action p args a ha _ ih => simp [jvars, lst _ _ ha ih]
  | letE x e b _ ih => simp [jvars, ih]
  | letB x e b _ ih => simp [jvars, ih]
  | tuple els a ha _ ih => simp [jvars, lst _ _ ha ih]
  | proj i b _ ih => simp [jvars, ih]
  | diff ts d hd _ ih => simp [jvars, lstD _ _ hd ih]
  | findC vs c s f _ ih => simp [jvars, ih]
  | findS vs c s f _ ih => simp [jvars, ih]
  | findF vs c s f _ ih => simp [jvars, ih]
  | quant q vs b _ ih => simp [jvars, ih]

mutual
theorem of_occ (v : JVar) : ∀ t, v ∈ jvars t → Occ v t
  | .app f args, h => by
    simp only [jvars, List.mem_append] at h
    rcases h with h | h
    · exact .appF _ _ (of_occ v f h)
    · obtain ⟨a, ha, ho⟩ := of_occL v args h; exact .app _ _ a ha ho
  | .fun_ _, h => by simp [jvars] at h
  | .name _ args, h => by
    simp only [jvars] at h
    obtain ⟨a, ha, ho⟩ := of_occL v args h; exact .name _ _ a ha ho
  | .mac _ args ts, h => by
    simp only [jvars, List.mem_append] at h
    rcases h with h | h
    · exact .macT _ _ _ (of_occ v ts h)
    · obtain ⟨a, ha, ho⟩ := of_occL v args h; exact .mac _ _ _ a ha ho
  | .action _ args, h => by
    simp only [jvars] at h
    obtain ⟨a, ha, ho⟩ := of_occL v args h; exact .action _ _ a ha ho
  | .var w, h => by
    simp only [jvars, List.mem_singleton] at h; subst h; exact .var
  | .letin _ e b, h => by
    simp only [jvars, List.mem_append] at h
    rcases h with h | h
    · exact .letB _ _ _ (of_occ v b h)
    · exact .letE _ _ _ (of_occ v e h)
  | .tuple els, h => by
    simp only [jvars] at h
    obtain ⟨a, ha, ho⟩ := of_occL v els h; exact .tuple _ a ha ho
  | .proj _ b, h => by simp only [jvars] at h; exact .proj _ _ (of_occ v b h)
  | .diff ts, h => by
    simp only [jvars] at h
    obtain ⟨a, ha, ho⟩ := of_occD v ts h; exact .diff _ a ha ho
  | .find _ c s f, h => by
    simp only [jvars, List.mem_append] at h
    rcases h with h | h | h
    · exact .findF _ _ _ _ (of_occ v f h)
    · exact .findS _ _ _ _ (of_occ v s h)
    · exact .findC _ _ _ _ (of_occ v c h)
  | .quant _ _ b, h => by simp only [jvars] at h; exact .quant _ _ _ (of_occ v b h)
theorem of_occL (v : JVar) : ∀ l, v ∈ jvarsL l → ∃ a ∈ l, Occ v a
  | [], h => by simp [jvarsL] at h
  | t :: r, h => by
    simp only [jvarsL, List.mem_append] at h
    rcases h with h | h
    · obtain ⟨a, ha, ho⟩ := of_occL v r h; exact ⟨a, by simp [ha], ho⟩
    · exact ⟨t, by simp, of_occ v t h⟩
theorem of_occD (v : JVar) : ∀ l, v ∈ jvarsD l → ∃ a ∈ l, Occ v a.2
  | [], h => by simp [jvarsD] at h
  | p :: r, h => by
    simp only [jvarsD, List.mem_append] at h
    rcases h with h | h
    · obtain ⟨a, ha, ho⟩ := of_occD v r h; exact ⟨a, by simp [ha], ho⟩
    · exact ⟨p, by simp, of_occP v p h⟩
theorem of_occP (v : JVar) : ∀ p, v ∈ jvarsP p → Occ v p.2
  | (_, t), h => by simp only [jvarsP] at h; exact of_occ v t h
end

/-! ### Actions -/

theorem hasInputs_iff {a : JAct} {vs : List JVar} (h : HasInputs d a vs) : ((firstMacro d a.globals).map MacDef.inputs).getD [] = vs := by
  obtain ⟨pre, g, post, inputs, indices, ts, body, e, hp, hg, rfl⟩ := h
  have : firstMacro d a.globals = some (.global inputs indices ts body) := by
    rw [firstMacro, e]
    clear e
    induction pre with
    | nil => simp [List.findSome?_cons, hg]
    | cons q pre ih =>
      rw [List.cons_append, List.findSome?_cons, hp q (by simp)]
      exact ih fun r hr => hp r (by simp [hr])
  rw [this]
  simp only [Option.map_some, Option.getD_some, MacDef.inputs]
  refine List.filter_congr fun v _ => ?_
  simp only [JVar.dummy, decide_not, beq_eq_decide]

theorem find_split {α : Type} {f : Path → Option α} : ∀ {l : List Path} {m : α}, l.findSome? f = some m →
    ∃ pre g post, l = pre ++ g :: post ∧ (∀ q ∈ pre, f q = none) ∧ f g = some m
  | [], m, h => by simp at h
  | q :: l, m, h => by
    rw [List.findSome?_cons] at h
    cases hq : f q with
    | some m' => rw [hq] at h; cases h; exact ⟨[], q, l, rfl, by simp, hq⟩
    | none =>
      rw [hq] at h
      obtain ⟨pre, g, post, rfl, h1, h2⟩ := find_split h
      exact ⟨q :: pre, g, post, rfl, by simpa [hq] using h1, h2⟩

theorem inputs_cases (d : Dump) (a : JAct) : ∃ vs, ((firstMacro d a.globals).map MacDef.inputs).getD [] = vs ∧
    (HasInputs d a vs ∨ (vs = [] ∧ ∀ ws, ¬ HasInputs d a ws)) := by
  by_cases h : ∃ ws, HasInputs d a ws
  · obtain ⟨ws, hw⟩ := h
    exact ⟨ws, hasInputs_iff hw, Or.inl hw⟩
  · have h' : ∀ ws, ¬ HasInputs d a ws := fun ws hw => h ⟨ws, hw⟩
    refine ⟨[], ?_, Or.inr ⟨rfl, h'⟩⟩
    cases hm : firstMacro d a.globals with
    | none => rfl
    | some m =>
      cases m with
      | protocol => rfl
      | structured => rfl
      | state => rfl
      | global inputs indices ts body =>
        obtain ⟨pre, g, post, e, h1, h2⟩ := find_split hm
        exact absurd ⟨pre, g, post, inputs, indices, ts, body, e, h1, h2, rfl⟩ (h' _)

theorem byFlow_mem {v : AT (List JVar)} {b : JAct} (h : d.byFlow v = some b) : b ∈ d.actions ∧ b.action = v := by
  refine ⟨?_, ?_⟩
  · have := List.mem_of_find?_eq_some h
    simpa using this
  · have := List.find?_some h
    simpa using this

variable {D : Type} {S : SStr D} {P : PStr D} {sys : String} {U : Sym → Prop} {pr : Bool}

/-- `input@b`. -/
theorem input_over (hd : OverDump C d U pr) {b : JAct} (hb : b ∈ d.actions) (hi : b.indices = vars b.action) {Γ : List String}
    (hΓ : ∀ v ∈ b.indices, v.name ∈ Γ) : Over C U pr Γ (inputAt b) := by
  refine .mac _ _ _ _ hd.input.1 hd.input.2 (fun _ => rfl) (by simp) (.action _ _ _ (hd.acts b hb) ?_)
  intro t ht
  obtain ⟨v, hv, rfl⟩ := List.mem_map.1 ht
  exact .var _ _ (hΓ v (by rw [hi]; exact hv))

theorem input_sev (hd : OverDump C d U pr) {b : JAct} (hi : b.indices = vars b.action) (ρ : String → D) :
    sev C S sys ρ (inputAt b) = S.mac inputP [] (S.act b.name (b.indices.map fun v => ρ v.name)) := by
  have hs : sev C S sys ρ (.action b.name ((vars b.action).map .var)) = S.act b.name ((vars b.action).map fun v => ρ v.name) := by
    simp only [sev, sevs_eq, List.map_map]
    rfl
  have hs' : sev C S sys ρ b.asTerm = S.act b.name (b.indices.map fun v => ρ v.name) := by rw [hi, ← hs]; rfl
  have := hd.input.2
  simp only [inputAt, sev, sevs_eq, List.map_nil, hs']
  change (match C.macs inputP with
    | some (.global inputs) => S.glob inputP [] (inputs.map fun v : JVar => ρ v.name) _
    | _ => S.mac inputP [] _) = _
  rcases hm : C.macs inputP with _ | _ | _ | _ | vs
  · rfl
  · rfl
  · rfl
  · rfl
  · exact absurd hm (this vs)

theorem input_direct (hd : OverDump C d U pr) (b : JAct) : ∃ x, direct C (inputAt b) = some x := by
  have h1 := hd.isMac
  have h2 := hd.input.2
  have ha : ∃ y, direct C b.asTerm = some y := by
    simp only [JAct.asTerm, direct, directL_eq, List.map_map]
    have : (direct C ∘ JT.var) = some ∘ fun v : JVar => Tm.cvar (C.san .variable v.name) := by
      funext v; rfl
    rw [this, ← List.map_map, seqOpt_some]
    exact ⟨_, rfl⟩
  obtain ⟨y, hy⟩ := ha
  simp only [inputAt]
  simp only [direct, directL, hy]
  change (C.macs inputP).isSome = true at h1
  change ∃ x, (match C.macs inputP with
    | some .protocol => _ | some .structured => _ | some .state => _ | some (.global inputs) => _ | none => _) = some x
  rcases hm : C.macs inputP with _ | _ | _ | _ | vs
  · rw [hm] at h1; cases h1
  · exact ⟨_, rfl⟩
  · exact ⟨_, rfl⟩
  · exact ⟨_, rfl⟩
  · exact absurd hm (h2 vs)

theorem addLet_any (hd : OverDump C d U pr) {b : JAct} {v : JVar} {x0 : Tm} {y : AoO Tm} (h : addLet C (.any x0) b v = .ok y) :
    ∃ inp s, direct C (inputAt b) = some inp ∧ dTy C v.sort = some s ∧ y = .any (.letin (C.san .variable v.name, s) inp x0) := by
  obtain ⟨inp, hi⟩ := input_direct hd b
  have hc := single C .any _ _ hi
  simp only [addLet, hc] at h
  rw [convTy_eq] at h
  cases hs : dTy C v.sort with
  | none => rw [hs] at h; simp [rbind, rpure, AoO.bind, Res.bind] at h
  | some s =>
    rw [hs] at h
    simp only [rbind, rpure, AoO.bind, Res.bind, Res.ok.injEq] at h
    have h' : Res.ok (AoO.any (Tm.letin (C.san .variable v.name, s) inp x0)) = Res.ok y := h
    cases h'
    exact ⟨inp, s, hi, rfl, rfl⟩

theorem lets_mean (hu : C.alnum '_' = false) (hS : Faithful C S U pr) (hA : Agree C S U P) (hL : ∀ s d f, P.letin s d f = f d)
    (hd : OverDump C d U pr) (hinv : ∀ b ∈ d.actions, b.indices = vars b.action) {a : JAct} (hia : a.indices = vars a.action)
    {ρ : String → D} {e : String → Option D} {Γ : List String} (hΓ : ∀ v ∈ a.indices, v.name ∈ Γ) (he : SameEnv C Γ ρ e) :
    ∀ (r : List JVar) (k : Nat) (x0 x : Tm), val (addLets C d a.action k r (.any x0)) = some x → (∀ v ∈ r, v.name ∉ fixedSyms) →
      (∀ j v, r[j]? = some v → ∀ b ∈ d.actions, b.action = a.action.take (k + j) →
        ρ v.name = S.mac inputP [] (S.act b.name (b.indices.map fun v => ρ v.name))) →
      ∃ e', SameEnv C (r.map JVar.name ++ Γ) ρ e' ∧ pev P e x = pev P e' x0 := by
  intro r
  induction r with
  | nil =>
    intro k x0 x h _ _
    simp only [addLets, val, Option.some.injEq] at h
    subst h
    exact ⟨e, he, rfl⟩
  | cons v r ih =>
    intro k x0 x h hf hv
    simp only [addLets] at h
    split at h
    · cases h
    · cases hb : d.byFlow (a.action.take k) with
      | none => rw [hb] at h; cases h
      | some b =>
        rw [hb] at h
        dsimp only at h
        obtain ⟨b1, b2⟩ := byFlow_mem hb
        cases hl : addLet C (.any x0) b v with
        | err => rw [hl] at h; cases h
        | panic => rw [hl] at h; cases h
        | ok y =>
          rw [hl] at h
          obtain ⟨inp, s, h1, h2, rfl⟩ := addLet_any hd hl
          obtain ⟨e', he', hx⟩ := ih (k + 1) _ x h (fun w hw => hf w (by simp [hw])) fun j w hw b hb hbb =>
            hv (j + 1) w (by simpa using hw) b hb (by rw [hbb]; congr 1; omega)
          have hsub : ∀ w ∈ b.indices, w.name ∈ r.map JVar.name ++ Γ := by
            intro w hw
            refine List.mem_append_right _ (hΓ w ?_)
            rw [hinv b b1, b2] at hw
            rw [hia]
            obtain ⟨it, hit, hw⟩ := List.mem_flatMap.1 hw
            exact List.mem_flatMap.2 ⟨it, List.mem_of_mem_take hit, hw⟩
          have hval : pev P e' inp = ρ v.name := by
            rw [means hu hS hA "" (input_over hd b1 (hinv b b1) hsub) inp ρ e' (by rw [input_sel]; exact h1) he', input_sev hd (hinv b b1)]
            exact (hv 0 v rfl b b1 (by rw [b2]; rfl)).symm
          refine ⟨set1 e' (C.san .variable v.name) (ρ v.name), ?_, ?_⟩
          · intro y hy
            by_cases hyv : y = v.name
            · subst hyv
              exact ⟨hf v (by simp), by simp [set1]⟩
            · have hy' : y ∈ r.map JVar.name ++ Γ := by
                rcases List.mem_cons.1 hy with h | h
                · exact absurd h hyv
                · exact h
              refine ⟨(he' y hy').1, ?_⟩
              have hne : C.san .variable y ≠ C.san .variable v.name := fun h => hyv (san_var_inj hu (he' y hy').1 h)
              simp only [set1, hne, if_false]
              exact (he' y hy').2
          · rw [hx]
            simp only [pev, hL, hval]

theorem prepare_mean (hu : C.alnum '_' = false) (hS : Faithful C S U pr) (hA : Agree C S U P) (hL : ∀ s d f, P.letin s d f = f d)
    (hd : OverDump C d U pr) (hinv : ∀ b ∈ d.actions, b.indices = vars b.action) (hsys : sys ∈ Ps) {a : JAct} (ha : a ∈ d.actions) {t : JT}
    (ht : ∀ vs, (HasInputs d a vs ∨ (vs = [] ∧ ∀ ws, ¬ HasInputs d a ws)) → Over C U pr (vs.map JVar.name ++ a.indices.map JVar.name) t)
    (hw : wf C Ps t) {x : Tm} (hx : val (prepare C (selDump sys d) a.action (firstMacro (selDump sys d) a.globals) (sel sys t)) = some x) :
    MeansAt C d S P sys a t x := by
  intro ρ e he hin
  obtain ⟨vs, h1, h2⟩ := inputs_cases d a
  have ho := ht vs h2
  have e1 : ((firstMacro (selDump sys d) a.globals).map MacDef.inputs).getD [] = vs := by
    rw [firstMacro_sel, Option.map_map, ← h1]
    congr 2
    funext m
    exact selMac_inputs sys m
  rw [prepare, val_rbind, e1] at hx
  obtain ⟨x0, hx0, hx⟩ := Option.bind_eq_some_iff.1 hx
  rw [addLets_sel] at hx
  have hdir := val_term hsys ho hw hx0
  obtain ⟨e', he', hxe⟩ := lets_mean hu hS hA hL hd hinv (hinv a ha) (fun v hv => List.mem_map.2 ⟨v, hv, rfl⟩) he vs.reverse 0 x0 x hx
    (fun v hv => by
      rcases h2 with h2 | ⟨rfl, _⟩
      · exact hd.names a ha vs h2 v (by simpa using hv)
      · simp at hv)
    (fun j v hj b hb hbb => by
      rcases h2 with h2 | ⟨rfl, _⟩
      · exact hin vs h2 j v hj b hb (by simpa using hbb)
      · simp at hj)
  rw [hxe]
  refine means hu hS hA sys ho x0 ρ e' hdir fun y hy => he' y ?_
  simpa using hy

theorem term_mean (hu : C.alnum '_' = false) (hS : Faithful C S U pr) (hA : Agree C S U P) (hsys : sys ∈ Ps) {Γ : List JVar} {t : JT}
    (ho : Over C U pr (Γ.map JVar.name) t) (hw : wf C Ps t) {x : Tm} (hx : val (convert C .any (sel sys t)) = some x) :
    Means C S P sys Γ t x := fun ρ e he => means hu hS hA sys ho x ρ e (val_term hsys ho hw hx) he

theorem upd_mean (hu : C.alnum '_' = false) (hS : Faithful C S U pr) (hA : Agree C S U P) (hd : OverDump C d U pr) (hsys : sys ∈ Ps) {a : JAct}
    (ha : a ∈ d.actions) (hw : WfAct C d Ps a) {u : Upd} (hu' : u ∈ a.updates) {s : Asg}
    (hx : val (convUpd C a.indices (selUpd sys u)) = some s) : UpdOf C S P sys a u s := by
  simp only [convUpd, selUpd] at hx
  obtain ⟨as, h1, hx⟩ := val_collect hx
  simp only [val_rbind] at hx
  obtain ⟨args, h2, hx⟩ := Option.bind_eq_some_iff.1 hx
  obtain ⟨fresh, h3, hx⟩ := Option.bind_eq_some_iff.1 hx
  obtain ⟨t, h4, hx⟩ := Option.bind_eq_some_iff.1 hx
  simp only [rpure, val, Option.some.injEq] at hx
  subst hx
  have hfr : seqOpt ((freshVars a.indices (selL sys u.args)).map fun v => val (bindVar C v)) = some fresh := by
    have := val_transpose h3
    rw [← h1, List.map_map] at this
    exact this
  have hv : ∀ v, v ∈ freshVars a.indices (selL sys u.args) ↔ (∃ t ∈ u.args, Occ v t) ∧ v ∉ a.indices := by
    intro v
    have e : (selL sys u.args).flatMap jvars = u.args.flatMap jvars := by
      rw [selL_eq, List.flatMap_map, List.flatMap_congr]
      exact fun t ht => hw.updCells u hu' sys hsys t ht
    simp only [freshVars, e, List.mem_filter, List.mem_flatMap, Bool.not_eq_true', List.contains_eq_mem, decide_eq_false_iff_not]
    refine and_congr_left fun _ => ⟨?_, ?_⟩
    · rintro ⟨t, ht, hv⟩; exact ⟨t, ht, of_occ v t hv⟩
    · rintro ⟨t, ht, hv⟩; exact ⟨t, ht, occ_of v hv⟩
  have hΓ : ∀ v, (∃ t ∈ u.args, Occ v t) ∨ v ∈ a.indices → v.name ∈ (freshVars a.indices (selL sys u.args) ++ a.indices).map JVar.name := by
    intro v hv'
    refine List.mem_map.2 ⟨v, ?_, rfl⟩
    rw [List.mem_append]
    by_cases hi : v ∈ a.indices
    · exact Or.inr hi
    · exact Or.inl ((hv v).2 ⟨hv'.resolve_right hi, hi⟩)
  have hargs : List.Forall₂ (Means C S P sys (freshVars a.indices (selL sys u.args) ++ a.indices)) u.args args := by
    rw [val_gather, convertL_eq, selL_eq, List.map_map, List.map_map] at h2
    have hwa := (wfL_iff C Ps u.args).1 (hw.updArgs u hu')
    have hoa := hd.updArgs a ha u hu'
    exact fa2 (seqOpt_map h2) fun t ht y hy => term_mean hu hS hA hsys (hoa t ht _ hΓ) (hwa t ht) hy
  refine ⟨args, freshVars a.indices (selL sys u.args), rfl, ?_, hv, hargs, ?_⟩
  · have hp := params_of hfr
    cases fresh with
    | nil => exact hp
    | cons b l => exact hp
  · exact term_mean hu hS hA hsys (hd.updBody a ha u hu' _ hΓ) (hw.updBody u hu') h4

theorem step_mean (hu : C.alnum '_' = false) (hS : Faithful C S U pr) (hA : Agree C S U P) (hL : ∀ s d f, P.letin s d f = f d)
    (hd : OverDump C d U pr) (hsys : sys ∈ Ps) (hW : ∀ b ∈ d.actions, WfAct C d Ps b) {a : JAct} (ha : a ∈ d.actions) {s : Stm}
    (hx : val (convStep C (selDump sys d) (selAct sys a)) = some s) : StepOf C d S P sys a s := by
  have hw := hW a ha
  have hinv : ∀ b ∈ d.actions, b.indices = vars b.action := fun b hb => (hW b hb).inv
  simp only [convStep] at hx
  obtain ⟨as, h1, hx⟩ := val_collect hx
  obtain ⟨us, h2, hx⟩ := val_collect hx
  have hc : (!(selAct sys a).condVars.isEmpty) = false := by simp [selAct, hw.condVars]
  rw [hc] at hx
  simp only [Bool.false_eq_true, if_false, val_rbind] at hx
  obtain ⟨msg, h3, hx⟩ := Option.bind_eq_some_iff.1 hx
  obtain ⟨cond, h4, hx⟩ := Option.bind_eq_some_iff.1 hx
  obtain ⟨asgs, h5, hx⟩ := Option.bind_eq_some_iff.1 hx
  obtain ⟨args, h6, hx⟩ := Option.bind_eq_some_iff.1 hx
  simp only [rpure, val, Option.some.injEq] at hx
  subst hx
  refine ⟨args, cond, msg, asgs, rfl, ?_, ?_, ?_, ?_⟩
  · have := val_transpose h6
    rw [← h1, List.map_map] at this
    exact params_of this
  · exact prepare_mean hu hS hA hL hd hinv hsys ha (hd.cond a ha) hw.cond h4
  · exact prepare_mean hu hS hA hL hd hinv hsys ha (hd.output a ha) hw.output h3
  · have := val_transpose h5
    rw [← h2, List.map_map] at this
    simp only [selAct, List.map_map] at this
    exact fa2 (seqOpt_map this) fun u hu' s hs => upd_mean hu hS hA hd hsys ha hw hu' hs

/-! ### Declarations, macros and the query -/

theorem fm2 {α γ : Type} {β : Type} {f : α → Option (Res (AoO β))} {g : α → Option γ} {R : γ → β → Prop} : ∀ {l : List α} {m : List β},
    seqOpt ((l.filterMap f).map val) = some m → (∀ a ∈ l, (g a = none → f a = none) ∧ ∀ c, g a = some c → ∃ r, f a = some r ∧
      ∀ s, val r = some s → R c s) → List.Forall₂ R (l.filterMap g) m
  | [], m, h, _ => by simp only [List.filterMap_nil, List.map_nil, seqOpt, Option.some.injEq] at h; subst h; exact .nil
  | a :: l, m, h, hg => by
    obtain ⟨h1, h2⟩ := hg a (by simp)
    cases hga : g a with
    | none =>
      rw [List.filterMap_cons_none (h1 hga)] at h
      rw [List.filterMap_cons_none hga]
      exact fm2 h fun a ha => hg a (by simp [ha])
    | some c =>
      obtain ⟨r, hr, hR⟩ := h2 c hga
      rw [List.filterMap_cons_some hr, List.map_cons] at h
      rw [List.filterMap_cons_some hga]
      cases hv : val r with
      | none => rw [hv] at h; simp [seqOpt] at h
      | some s =>
        rw [hv] at h
        simp only [seqOpt, Option.map_eq_some_iff] at h
        obtain ⟨m', hm', rfl⟩ := h
        exact .cons (hR s hv) (fm2 hm' fun a ha => hg a (by simp [ha]))

theorem args_of {args : List JTy} {l : List String} (h : seqOpt ((declArgs args).map fun t => val (convTy C t)) = some l) : ArgsOf C args l := by
  rw [declArgs] at h
  cases hl : args.getLast? with
  | none =>
    rw [hl] at h
    refine Or.inr ⟨fun pre els e => ?_, tys_of h⟩
    rw [e] at hl; simp at hl
  | some t =>
    rw [hl] at h
    cases t with
    | tuple els =>
      obtain ⟨pre, rfl⟩ := List.getLast?_eq_some_iff.1 hl
      exact Or.inl ⟨pre, els, rfl, tys_of h⟩
    | message | boolean | index | timestamp | tbase | unsupported | name =>
      refine Or.inr ⟨fun pre els e => ?_, tys_of h⟩
      rw [e] at hl; simp at hl

theorem decl_of {symb : String} {args : List JTy} {out : JTy} {s : Stm} (h : val (declFun C symb args out) = some s) :
    ∃ as o, s = .func symb as o [] ∧ ArgsOf C args as ∧ TyOf C out o := by
  simp only [declFun, val_rbind, val_ty, val_gather] at h
  obtain ⟨o, h1, h⟩ := Option.bind_eq_some_iff.1 h
  obtain ⟨as, h2, h⟩ := Option.bind_eq_some_iff.1 h
  simp only [rpure, val, Option.some.injEq] at h
  subst h
  rw [List.map_map] at h2
  exact ⟨as, o, rfl, args_of h2, tyOf_of h1⟩

theorem concrete_of (hu : C.alnum '_' = false) (hS : Faithful C S U pr) (hA : Agree C S U P) (hsys : sys ∈ Ps) {p : Path} {vs : List JVar}
    {body : JT} (ho : Over C U pr (vs.map JVar.name) body) (hw : wf C Ps body) {s : Stm}
    (h : val (convConcrete C p vs (sel sys body)) = some s) : MacOf C S P sys p vs body s := by
  simp only [convConcrete, val_rbind, val_gather] at h
  obtain ⟨as, h1, h⟩ := Option.bind_eq_some_iff.1 h
  obtain ⟨t, h2, h⟩ := Option.bind_eq_some_iff.1 h
  simp only [rpure, val, Option.some.injEq] at h
  subst h
  rw [List.map_map] at h1
  exact ⟨as, t, rfl, params_of h1, term_mean hu hS hA hsys ho hw h2⟩

theorem dummy_eq (inputs : List JVar) : (inputs.filter fun v => !v.dummy) = inputs.filter fun v => decide (v.name ≠ "$dummy") :=
  List.filter_congr fun v _ => by simp only [JVar.dummy, decide_not, beq_eq_decide]

theorem mem_seq {α : Type} : ∀ {rs : List (Res (AoO α))} {m : List α}, seqOpt (rs.map val) = some m → ∀ s, s ∈ m ↔ ∃ r ∈ rs, val r = some s
  | [], m, h, s => by simp only [List.map_nil, seqOpt, Option.some.injEq] at h; subst h; simp
  | r :: rs, m, h, s => by
    cases hr : val r with
    | none => simp [seqOpt, hr] at h
    | some a =>
      simp only [List.map_cons, hr, seqOpt, Option.map_eq_some_iff] at h
      obtain ⟨m', hm', rfl⟩ := h
      simp only [List.mem_cons, mem_seq hm' s, exists_eq_or_imp, hr, Option.some.injEq]
      exact or_congr_left eq_comm

theorem fail_name : C.san .function "fail" = "fail" := by
  simp only [Ctx.san, sanitize, show remap "fail" = some "fail" by decide +kernel]

theorem crypto_of (e : Path × OpData) (s : Stm) : (∃ r ∈ spread (cryptoOf C e.1 e.2.defn), val r = some s) ↔ CryptoOf C e s := by
  obtain ⟨p, ty, o⟩ := e
  have sp : ∀ l : List Stm, (∃ r ∈ spread (.ok l), val r = some s) ↔ s ∈ l := by
    intro l
    simp only [spread, List.mem_map, rpure]
    constructor
    · rintro ⟨_, ⟨a, ha, rfl⟩, h⟩; simp only [val, Option.some.injEq] at h; exact h ▸ ha
    · intro h; exact ⟨_, ⟨s, h, rfl⟩, rfl⟩
  cases o with
  | hash l =>
    simp only [cryptoOf, sp, assertEuf, List.mem_cons, List.not_mem_nil, or_false]
    constructor
    · rintro (rfl | rfl)
      · exact .hash _ _ _
      · exact .verify _ _ _
    · intro h; cases h <;> simp
  | senc l =>
    cases l with
    | nil =>
      simp only [cryptoOf, spread, List.mem_singleton, exists_eq_left, val]
      exact ⟨fun h => (by cases h), fun h => (by cases h)⟩
    | cons q l =>
      simp only [cryptoOf, sp, assertIntCtxt, List.mem_singleton, fail_name]
      exact ⟨fun h => h ▸ .enc _ _ _ _, fun h => by cases h; rfl⟩
  | checkSign l =>
    match l with
    | [] =>
      simp only [cryptoOf, spread, List.mem_singleton, exists_eq_left, val]
      exact ⟨fun h => (by cases h), fun h => (by cases h)⟩
    | [q] =>
      simp only [cryptoOf, sp, assertEuf, List.head?_nil, Option.map_none, Option.toList_none, List.append_nil, List.mem_singleton]
      exact ⟨fun h => h ▸ .sign _ _ _, fun h => by cases h; rfl⟩
    | q :: k :: l =>
      simp only [cryptoOf, sp, assertEuf, List.head?_cons, Option.map_some, Option.toList_some, List.mem_singleton]
      exact ⟨fun h => h ▸ .signK _ _ _ _ _, fun h => by cases h; rfl⟩
  | other l =>
    simp only [cryptoOf, sp]
    exact ⟨fun h => (by simp at h), fun h => (by cases h)⟩
  | concrete a b =>
    simp only [cryptoOf, sp]
    exact ⟨fun h => (by simp at h), fun h => (by cases h)⟩

theorem query_over (hd : OverDump C d U pr) : Over C U pr [] (queryTerm d) := by
  obtain ⟨h1, h1'⟩ := hd.logic andP (by simp)
  obtain ⟨h2, h2'⟩ := hd.logic impP (by simp)
  obtain ⟨h3, h3'⟩ := hd.logic trueP (by simp)
  refine .quant _ _ _ _ hd.vars ?_
  rw [List.append_nil]
  have hf : ∀ (l : List JT) (acc : JT), (∀ t ∈ l, Over C U pr (d.vars.map JVar.name) t) → Over C U pr (d.vars.map JVar.name) acc →
      Over C U pr (d.vars.map JVar.name) (l.foldl (fun acc t => .app (.fun_ ⟨[], "&&"⟩) [acc, t]) acc) := by
    intro l
    induction l with
    | nil => intro acc _ h; exact h
    | cons t l ih =>
      intro acc hl ha
      refine ih _ (fun t ht => hl t (by simp [ht])) (.app _ _ _ h1 h1' ?_)
      simp only [List.mem_cons, List.not_mem_nil, or_false]
      rintro a (rfl | rfl)
      · exact ha
      · exact hl _ (by simp)
  refine .app _ _ _ h2 h2' ?_
  simp only [List.mem_cons, List.not_mem_nil, or_false]
  rintro a (rfl | rfl)
  · exact hf _ _ hd.hyps (.app _ _ _ h3 h3' (by simp))
  · exact hd.query

theorem query_sev (ρ : String → D) : sev C S sys ρ (queryTerm d) = goal C d S sys ρ := by
  simp only [queryTerm, sev, varsOf_map, sevs, goal]
  congr 1
  funext ds
  have hf : ∀ (ρ : String → D) (l : List JT) (acc : JT), sev C S sys ρ (l.foldl (fun acc t => .app (.fun_ ⟨[], "&&"⟩) [acc, t]) acc) =
      (l.map (sev C S sys ρ)).foldl (fun acc h => S.op andP [acc, h]) (sev C S sys ρ acc) := by
    intro ρ l
    induction l with
    | nil => intro acc; rfl
    | cons t l ih => intro acc; simp only [List.foldl_cons, List.map_cons]; rw [ih]; simp only [sev, sevs]; rfl
  rw [hf]
  simp only [sev, sevs]
  rfl

theorem filterMap_filter {α β : Type} (q : α → Bool) (f : α → β) (l : List α) :
    (l.filterMap fun a => if q a then some (f a) else none) = (l.filter q).map f := by
  induction l with
  | nil => rfl
  | cons a l ih => by_cases h : q a <;> simp [List.filterMap_cons, h, ih]

/-- **C80.** The problem of a system of a Squirrel file consists of what stands in the file: one step per action, with its parameters, condition,
message and updates; one definition per macro; the declarations of types, cells, names and operators; the assumptions on the cryptographic
operators; and the goal. Terms mean what they meant in that system. -/
theorem C80_contents {alnum : Char → Bool} (hu : alnum '_' = false) (hS : Faithful (d.ctx alnum) S U pr) (hA : Agree (d.ctx alnum) S U P)
    (hL : ∀ s d f, P.letin s d f = f d) (hd : OverDump (d.ctx alnum) d U pr) (hP : Ps.Pairwise (· < ·)) (hw : WfDump (d.ctx alnum) d Ps)
    {r : AoO (List Stm)} (hr : convDump alnum d = .ok r) (i : Nat) (hi : i < Ps.length) :
    ∃ l types cells names funs macs defs axs steps ords crypto q, r.get i = some l ∧
      Contents (d.ctx alnum) d S P Ps[i] l types cells names funs macs defs axs steps ords crypto q := by
  obtain ⟨l, hl, h⟩ := C77_projection alnum (by omega) hP hw hr i hi
  have hsys : Ps[i] ∈ Ps := List.getElem_mem hi
  generalize Ps[i] = sys at h hsys
  replace h : val (gather (allStms (d.ctx alnum) (selDump sys d))) = some l := by
    rw [convDump, ctx_sel] at h; rw [h]; rfl
  have hu' : (d.ctx alnum).alnum '_' = false := hu
  generalize d.ctx alnum = C at h hS hA hd hw hu'
  rw [val_gather] at h
  simp only [allStms, List.map_append] at h
  obtain ⟨a1, q, g0, hq, rfl⟩ := seqOpt_append _ _ _ h
  obtain ⟨a2, ys, g1, hys, rfl⟩ := seqOpt_append _ _ _ g0
  obtain ⟨a3, os, g2, hos, rfl⟩ := seqOpt_append _ _ _ g1
  obtain ⟨a4, ss, g3, hss, rfl⟩ := seqOpt_append _ _ _ g2
  obtain ⟨a5, axs, g4, haxs, rfl⟩ := seqOpt_append _ _ _ g3
  obtain ⟨a6, ms, g5, hms, rfl⟩ := seqOpt_append _ _ _ g4
  obtain ⟨a7, fs, g6, hfs, rfl⟩ := seqOpt_append _ _ _ g5
  obtain ⟨ts, cs, hts, hcs, rfl⟩ := seqOpt_append _ _ _ g6
  simp only [mkFuns, List.map_append] at hfs
  obtain ⟨ns, fs', hns, hfs', rfl⟩ := seqOpt_append _ _ _ hfs
  simp only [mkMacros, List.map_append] at hms
  obtain ⟨gs, ks, hgs, hks, rfl⟩ := seqOpt_append _ _ _ hms
  -- the query
  have hq' : ∃ qt, q = [.assert .query qt []] ∧ ∀ ρ e, pev P e qt = goal C d S sys ρ := by
    cases hv : val (mkQuery C (selDump sys d)) with
    | none => simp [seqOpt, hv] at hq
    | some s =>
      simp only [List.map_cons, List.map_nil, hv, seqOpt, Option.map_some, Option.some.injEq] at hq
      subst hq
      rw [mkQuery, val_rbind, ← sel_query] at hv
      obtain ⟨qt, h1, h2⟩ := Option.bind_eq_some_iff.1 hv
      simp only [rpure, val, Option.some.injEq] at h2
      subst h2
      refine ⟨qt, rfl, fun ρ e => ?_⟩
      rw [← query_sev]
      exact means hu' hS hA sys (query_over hd) qt ρ e (val_term hsys (query_over hd) (query_wf hw) h1) (by simp [SameEnv])
  obtain ⟨qt, rfl, hqt⟩ := hq'
  refine ⟨_, ts, cs, ns, fs', gs, ks, axs, ss, os, ys, qt, hl, ⟨rfl, ?_, ?_, ?_, ?_, ?_, ?_, ?_, ?_, ?_, ?_, hqt⟩⟩
  · rw [mkTypes, List.map_map] at hts
    have e : (val ∘ rpure : Stm → Option Stm) = some := rfl
    rw [e, seqOpt_some] at hts
    cases hts
    refine ⟨d.types.filter fun e => canBeIndex e.2, ⟨List.filter_sublist, fun e he => ?_⟩, ?_⟩
    · simp [he, canBeIndex, IndexType]
    · rw [← filterMap_filter]; rfl
  · rw [mkCells] at hcs
    simp only [selDump, List.filterMap_map] at hcs
    refine fm2 hcs fun e he => ?_
    obtain ⟨p, m⟩ := e
    cases m with
    | protocol => exact ⟨fun _ => rfl, fun c h => by cases h⟩
    | structured => exact ⟨fun _ => rfl, fun c h => by cases h⟩
    | global => exact ⟨fun _ => rfl, fun c h => by cases h⟩
    | state sort vars =>
      refine ⟨fun h => (by cases h), fun c h => ?_⟩
      simp only [Option.some.injEq] at h
      subst h
      refine ⟨_, rfl, fun s hs => ?_⟩
      simp only [val_rbind, val_gather, val_ty, List.map_map] at hs
      obtain ⟨out, h1, hs⟩ := Option.bind_eq_some_iff.1 hs
      obtain ⟨args, h2, hs⟩ := Option.bind_eq_some_iff.1 hs
      simp only [rpure, val, Option.some.injEq] at hs
      subst hs
      refine ⟨args, out, rfl, fa2 (seqOpt_map h2) fun v _ s hs => tyOf_of ?_, tyOf_of h1⟩
      simpa [val_ty] using hs
  · refine ⟨d.names.filter fun e => e.2.vars.isEmpty, ⟨List.filter_sublist, fun e he => by simp [he]⟩, ?_⟩
    have := fm2 (g := fun e : Path × FunTy => if e.2.vars.isEmpty then some e else none) (R := NameOf C) hns fun e he => ?_
    · rwa [filterMap_filter, List.map_id'] at this
    · by_cases hv : e.2.vars.isEmpty
      · refine ⟨fun h => by simp [hv] at h, fun c h => ?_⟩
        simp only [hv, if_true, Option.some.injEq] at h
        subst h
        refine ⟨_, if_pos hv, fun s hs => ?_⟩
        obtain ⟨as, o, rfl, h1, h2⟩ := decl_of hs
        cases h2
        exact ⟨as, rfl, h1⟩
      · exact ⟨fun _ => if_neg hv, fun c h => by simp [hv] at h⟩
  · simp only [selDump, List.filterMap_map] at hfs'
    let dec : Path × OpData → Bool := fun e => !(forbidden.contains e.1.toStr || builtinOps.contains e.1.toStr) && !e.2.defn.isConcrete &&
      e.2.sort.vars.isEmpty
    refine ⟨d.ops.filter dec, ⟨List.filter_sublist, fun e he => ?_⟩, ?_⟩
    · rw [List.mem_filter]
      simp only [he, true_and, dec, Declared, Bool.and_eq_true, Bool.not_eq_true', Bool.or_eq_false_iff, List.contains_eq_mem,
        decide_eq_false_iff_not, List.isEmpty_iff, and_assoc]
      have e1 : (∀ args body, e.2.defn ≠ .concrete args body) ↔ e.2.defn.isConcrete = false := by
        cases e.2.defn <;> simp [OpDef.isConcrete]
      rw [e1, ← and_assoc]
      refine and_congr_left fun _ => ?_
      rw [← not_or, ← List.mem_append]
      exact Iff.rfl
    · have := fm2 (g := fun e : Path × OpData => if dec e then some e else none) (R := FunOf C) hfs' fun e he => ?_
      · rwa [filterMap_filter, List.map_id'] at this
      · have hc : (selDef sys e.2.defn).isConcrete = e.2.defn.isConcrete := isConcrete_sel sys _
        simp only [Function.comp, hc]
        have off : dec e = false → ∀ c, (if dec e = true then some e else none) = some c → False := by
          intro h c hc
          rw [h] at hc
          cases hc
        by_cases c1 : (forbidden.contains e.1.toStr || builtinOps.contains e.1.toStr) = true
        · exact ⟨fun _ => by rw [if_pos c1], fun c h => (off (by simp only [dec, c1]; rfl) c h).elim⟩
        · by_cases c2 : e.2.defn.isConcrete = true
          · exact ⟨fun _ => by rw [if_neg c1, if_pos c2], fun c h => (off (by simp only [dec, c2]; simp) c h).elim⟩
          · by_cases c3 : e.2.sort.vars.isEmpty = true
            · have on : dec e = true := by
                simp only [Bool.not_eq_true] at c1 c2
                simp only [dec, c1, c2, c3]; rfl
              refine ⟨fun h => ?_, fun c h => ?_⟩
              · rw [if_pos on] at h; cases h
              · refine ⟨_, by rw [if_neg c1, if_neg c2, if_pos c3], fun s hs => ?_⟩
                rw [if_pos on, Option.some.injEq] at h
                subst h
                obtain ⟨as, o, rfl, h1, h2⟩ := decl_of hs
                exact ⟨as, o, rfl, h1, h2⟩
            · exact ⟨fun _ => by rw [if_neg c1, if_neg c2, if_neg c3], fun c h => (off (by
                simp only [Bool.not_eq_true] at c3; simp only [dec, c3]; simp) c h).elim⟩
  · simp only [selDump, List.filterMap_map] at hgs
    refine fm2 hgs fun e he => ?_
    obtain ⟨p, m⟩ := e
    cases m with
    | protocol => exact ⟨fun _ => rfl, fun c h => by cases h⟩
    | structured => exact ⟨fun _ => rfl, fun c h => by cases h⟩
    | state => exact ⟨fun _ => rfl, fun c h => by cases h⟩
    | global inputs indices ts body =>
      refine ⟨fun h => (by cases h), fun c h => ?_⟩
      have hmem : c ∈ globals d := List.mem_filterMap.2 ⟨_, he, h⟩
      simp only [Option.some.injEq] at h
      subst h
      refine ⟨_, transpose_some _, fun s hs => ?_⟩
      refine concrete_of hu' hS hA hsys (hd.macs _ hmem) (hw.macs _ he) ?_
      rw [← dummy_eq]
      exact hs
  · simp only [selDump, List.filterMap_map] at hks
    refine fm2 hks fun e he => ?_
    obtain ⟨p, ty, o⟩ := e
    cases o with
    | concrete args body =>
      refine ⟨fun h => (by cases h), fun c h => ?_⟩
      have hmem : c ∈ concretes d := List.mem_filterMap.2 ⟨_, he, h⟩
      simp only [Option.some.injEq] at h
      subst h
      exact ⟨_, rfl, fun s hs => concrete_of hu' hS hA hsys (hd.ops _ hmem) (hw.ops _ he) hs⟩
    | hash | senc | checkSign | other => exact ⟨fun _ => rfl, fun c h => by cases h⟩
  · rw [mkAsserts, List.map_map] at haxs
    have e : (val ∘ fun t => rpure (Stm.assert .assert t []) : Tm → Option Stm) = some ∘ fun t => Stm.assert .assert t [] := rfl
    rw [e, ← List.map_map, seqOpt_some] at haxs
    exact (Option.some.inj haxs).symm
  · simp only [mkSteps, selDump, List.map_map] at hss
    exact fa2 (seqOpt_map hss) fun a ha s hs => step_mean hu' hS hA hL hd hsys hw.actions ha hs
  · rw [mkOrders, List.map_map] at hos
    have e : (selDump sys d).actions.map JAct.act = d.actions.map JAct.act := by
      simp only [selDump, List.map_map]; rfl
    rw [e] at hos
    refine fa2 (seqOpt_map hos) fun r _ s hs => ?_
    cases r with
    | err => cases hs
    | panic => cases hs
    | ok o =>
      have : some o.stm = some s := hs
      cases this
      refine ⟨o, rfl, ?_⟩
      obtain ⟨v, a, b, k⟩ := o
      cases k <;> constructor
  · intro s
    rw [mem_seq hys s, mkCrypto]
    simp only [List.mem_append, or_and_right, exists_or]
    refine or_congr ?_ ?_
    · simp only [List.mem_map]
      constructor
      · rintro ⟨_, ⟨n, hn, rfl⟩, h⟩
        simp only [rpure, val, Option.some.injEq] at h
        exact ⟨n, hn, h⟩
      · rintro ⟨n, hn, rfl⟩
        exact ⟨_, ⟨n, hn, rfl⟩, rfl⟩
    · simp only [List.mem_flatMap, selDump]
      constructor
      · rintro ⟨r, ⟨e', he', hr⟩, h⟩
        obtain ⟨e, he, rfl⟩ := List.mem_map.1 he'
        rw [crypto_sel] at hr
        exact ⟨e, he, (crypto_of e s).1 ⟨r, hr, h⟩⟩
      · rintro ⟨e, he, h⟩
        obtain ⟨r, hr, h⟩ := (crypto_of e s).2 h
        refine ⟨r, ⟨_, List.mem_map.2 ⟨e, he, rfl⟩, ?_⟩, h⟩
        rw [crypto_sel]
        exact hr

end

/-! ### Models of a file are models of its problem -/

section
variable {D : Type} (C : Ctx) (d : Dump) (S : SStr D) (sys : String) (T : D → Prop)

/-- The first axiom of pairs, for Squirrel's symbols. -/
def fstAx : D := S.quant .all [.message, .message] fun ds =>
  S.val C (.op eqP) [S.val C (.op fstP) [S.val C (.op pairP) [ds.headD S.junk, ds.tail.headD S.junk]], ds.headD S.junk]

/-- The second axiom of pairs. -/
def sndAx : D := S.quant .all [.message, .message] fun ds =>
  S.val C (.op eqP) [S.val C (.op sndP) [S.val C (.op pairP) [ds.headD S.junk, ds.tail.headD S.junk]], ds.tail.headD S.junk]

/-- SPECIFICATION. A model of a Squirrel file, for one of its systems: the outputs and conditions of actions are as described, the cells an action
updates have the values it gives them, global macros are equal to their bodies, and projections of pairs are right. -/
structure SqModel : Prop where
  out : ∀ a ∈ d.actions, ∀ ρ, InputsAt d S a ρ → S.mac outputP [] (S.act a.name (a.indices.map fun v => ρ v.name)) = sev C S sys ρ a.output
  cond : ∀ a ∈ d.actions, ∀ ρ, InputsAt d S a ρ → S.mac condP [] (S.act a.name (a.indices.map fun v => ρ v.name)) = sev C S sys ρ a.cond
  upd : ∀ a ∈ d.actions, ∀ u ∈ a.updates, ∀ ρ,
    S.mac u.symb (u.args.map (sev C S sys ρ)) (S.act a.name (a.indices.map fun v => ρ v.name)) = sev C S sys ρ u.body
  mac : ∀ p inputs indices ts body, (p, MacDef.global inputs indices ts body) ∈ d.macs → ∀ ρ : String → D,
    S.glob p (indices.map fun v => ρ v.name) ((inputs.filter fun v => decide (v.name ≠ "$dummy")).map fun v => ρ v.name) (ρ ts.name) =
      sev C S sys ρ body
  pair : T (fstAx C S) ∧ T (sndAx C S)

variable (P : PStr D) (l : List Stm)

/-- SPECIFICATION. A model of a problem: the messages and conditions of steps are as described, the cells assigned have the values they are
assigned, macros are equal to their bodies, and assertions hold. -/
structure CvModel : Prop where
  msg : ∀ n args cond msg asgs o, Stm.step n args cond msg asgs o ∈ l → ∀ e : String → Option D, (∀ b ∈ args, (e b.1).isSome) →
    P.fn "msg" [P.fn n (args.map fun b => (e b.1).getD P.junk)] = pev P e msg
  cond : ∀ n args cond msg asgs o, Stm.step n args cond msg asgs o ∈ l → ∀ e : String → Option D, (∀ b ∈ args, (e b.1).isSome) →
    P.fn "cond" [P.fn n (args.map fun b => (e b.1).getD P.junk)] = pev P e cond
  asg : ∀ n args cond msg asgs o, Stm.step n args cond msg (some asgs) o ∈ l → ∀ s ∈ asgs, ∀ c xs, s.cell = .app c xs →
    ∀ e : String → Option D, (∀ b ∈ args ++ s.fresh.getD [], (e b.1).isSome) →
    P.fn c (xs.map (pev P e) ++ [P.fn n (args.map fun b => (e b.1).getD P.junk)]) = pev P e s.term
  mac : ∀ n args t o, Stm.mac n args t o ∈ l → ∀ e : String → Option D, (∀ b ∈ args, (e b.1).isSome) →
    P.mac n (args.map fun b => (e b.1).getD P.junk) = pev P e t
  ax : ∀ t o, Stm.assert .assert t o ∈ l → ∀ e, T (pev P e t)

/-- SPECIFICATION. What the names of a file have to be for its problem to be read as meant: no variable has the name of a fixed symbol, the inputs
of a macro are variables of their own, no two macros have the same path, the symbols used are among `U`, and no operator has a definition. -/
structure NamesFine (U : Sym → Prop) : Prop where
  indices : ∀ a ∈ d.actions, ∀ v ∈ a.indices, v.name ∉ fixedSyms
  inputs : ∀ a ∈ d.actions, ∀ vs, HasInputs d a vs → (vs.map JVar.name).Nodup ∧ ∀ v ∈ vs, v.name ∉ a.indices.map JVar.name
  cells : ∀ a ∈ d.actions, ∀ u ∈ a.updates, U (.mac u.symb) ∧ ∀ t ∈ u.args, ∀ v, Occ v t → v.name ∉ fixedSyms
  params : ∀ e ∈ globals d, U (.glob e.1) ∧ ∀ v ∈ e.2.1, v.name ∉ fixedSyms
  keys : (d.macs.map (·.1)).Nodup
  protocol : U (.mac outputP) ∧ U (.mac condP)
  pairs : ∀ p ∈ [pairP, fstP, sndP, eqP], U (.op p)
  abstract : concretes d = []

end

section
variable {C : Ctx} {d : Dump} {D : Type} {S : SStr D} {P : PStr D} {U : Sym → Prop} {pr : Bool} {sys : String}

theorem sameEnv_of {vs : List JVar} {bs : List Bnd} (hp : Params C vs bs) (hn : ∀ v ∈ vs, v.name ∉ fixedSyms) {e : String → Option D} {j : D}
    (he : ∀ b ∈ bs, (e b.1).isSome) : SameEnv C (vs.map JVar.name) (fun x => (e (C.san .variable x)).getD j) e := by
  intro x hx
  obtain ⟨v, hv, rfl⟩ := List.mem_map.1 hx
  refine ⟨hn v hv, ?_⟩
  have : ∃ b ∈ bs, b.1 = C.san .variable v.name := by
    clear hn he hx
    induction hp with
    | nil => simp at hv
    | @cons w b vs bs hwb _ ih =>
      rcases List.mem_cons.1 hv with rfl | hv
      · exact ⟨b, by simp, hwb.1⟩
      · obtain ⟨b', hb', e'⟩ := ih hv
        exact ⟨b', by simp [hb'], e'⟩
  obtain ⟨b, hb, e1⟩ := this
  have := he b hb
  rw [e1] at this
  obtain ⟨x, hx⟩ := Option.isSome_iff_exists.1 this
  simp [hx]

theorem params_vals {vs : List JVar} {bs : List Bnd} (hp : Params C vs bs) {e : String → Option D} {j : D} {ρ : String → D}
    (he : SameEnv C (vs.map JVar.name) ρ e) : (bs.map fun b => (e b.1).getD j) = vs.map fun v => ρ v.name := by
  induction hp with
  | nil => rfl
  | @cons w b vs bs hwb _ ih =>
    simp only [List.map_cons]
    rw [ih fun x hx => he x (by simp at hx ⊢; exact Or.inr hx), hwb.1, (he w.name (by simp)).2]
    rfl

theorem mem_fa2 {α β : Type} {R : α → β → Prop} {l : List α} {m : List β} (h : List.Forall₂ R l m) {b : β} (hb : b ∈ m) : ∃ a ∈ l, R a b := by
  induction h with
  | nil => simp at hb
  | @cons a b' l m hab _ ih =>
    rcases List.mem_cons.1 hb with rfl | hb
    · exact ⟨a, by simp, hab⟩
    · obtain ⟨a', ha', h⟩ := ih hb
      exact ⟨a', by simp [ha'], h⟩

theorem flow_unique (hd : OverDump C d U pr) {a b : JAct} (ha : a ∈ d.actions) (hb : b ∈ d.actions) (h : a.action = b.action) : a = b := by
  have key : ∀ l : List JAct, l.Pairwise (fun a b => a.action ≠ b.action) → a ∈ l → b ∈ l → a = b := by
    intro l
    induction l with
    | nil => intro _ h; simp at h
    | cons c l ih =>
      intro hp h1 h2
      obtain ⟨h3, h4⟩ := List.pairwise_cons.1 hp
      rcases List.mem_cons.1 h1 with e1 | h1 <;> rcases List.mem_cons.1 h2 with e2 | h2
      · rw [e1, e2]
      · exact absurd (e1 ▸ h) (h3 b h2)
      · exact absurd (e2 ▸ h.symm) (h3 a h1)
      · exact ih h4 h1 h2
  exact key _ hd.flows ha hb

/-- The inputs can be given their values. -/
theorem inputs_exist (hd : OverDump C d U pr) (hn : NamesFine d U) (hinv : ∀ b ∈ d.actions, b.indices = vars b.action) {a : JAct}
    (ha : a ∈ d.actions) (ρ₀ : String → D) : ∃ ρ, InputsAt d S a ρ ∧ ∀ x ∈ a.indices.map JVar.name, ρ x = ρ₀ x := by
  classical
  by_cases h : ∃ vs, HasInputs d a vs
  · obtain ⟨vs, hv⟩ := h
    obtain ⟨h1, h2⟩ := hn.inputs a ha vs hv
    let input : Nat → Option D := fun k => (d.actions.find? fun b => b.action = a.action.take k).map fun b =>
      S.mac inputP [] (S.act b.name (b.indices.map fun v => ρ₀ v.name))
    let ρ : String → D := fun x => ((vs.reverse.findIdx? fun v => v.name = x).bind input).getD (ρ₀ x)
    have off : ∀ x ∈ a.indices.map JVar.name, ρ x = ρ₀ x := by
      intro x hx
      have : (vs.reverse.findIdx? fun v => decide (v.name = x)) = none := by
        rw [List.findIdx?_eq_none_iff]
        intro v hv'
        simp only [decide_eq_false_iff_not]
        rintro rfl
        exact h2 v (by simpa using hv') hx
      simp only [ρ, this, Option.bind_none, Option.getD_none]
    refine ⟨ρ, ?_, off⟩
    intro ws hws k v hk b hb hbb
    have : ws = vs := by rw [← hasInputs_iff hws, ← hasInputs_iff hv]
    subst this
    have hidx : (ws.reverse.findIdx? fun w => decide (w.name = v.name)) = some k := by
      have hlt : k < ws.reverse.length := by
        by_contra hc
        rw [List.getElem?_eq_none (by omega)] at hk
        cases hk
      have hget : ws.reverse[k] = v := by
        rw [List.getElem?_eq_getElem hlt] at hk
        exact Option.some.inj hk
      have hnd : (ws.reverse.map JVar.name).Nodup := by rw [List.map_reverse]; exact List.nodup_reverse.2 h1
      rw [List.findIdx?_eq_some_iff_getElem]
      refine ⟨hlt, by simp [hget], fun j hj => ?_⟩
      have hjl : j < ws.reverse.length := by omega
      simp only [decide_eq_true_eq]
      intro hc
      have e1 : (ws.reverse.map JVar.name)[j]'(by simpa using hjl) = (ws.reverse.map JVar.name)[k]'(by simpa using hlt) := by
        rw [List.getElem_map, List.getElem_map, hget]; exact hc
      have := (List.Nodup.getElem_inj_iff hnd).1 e1
      omega
    have hfind : (d.actions.find? fun b => decide (b.action = a.action.take k)) = some b := by
      cases hf : d.actions.find? fun b => decide (b.action = a.action.take k) with
      | none =>
        have := List.find?_eq_none.1 hf b hb
        simp [hbb] at this
      | some c =>
        have hc1 := List.mem_of_find?_eq_some hf
        have hc2 : c.action = a.action.take k := by simpa using List.find?_some hf
        rw [flow_unique hd hc1 hb (hc2.trans hbb.symm)]
    simp only [ρ, hidx, Option.bind_some, input, hfind, Option.map_some, Option.getD_some]
    congr 2
    refine List.map_congr_left fun w hw => ?_
    refine (off w.name (List.mem_map.2 ⟨w, ?_, rfl⟩)).symm
    rw [hinv b hb, hbb] at hw
    rw [hinv a ha]
    obtain ⟨it, hit, hw⟩ := List.mem_flatMap.1 hw
    exact List.mem_flatMap.2 ⟨it, List.mem_of_mem_take hit, hw⟩
  · exact ⟨ρ₀, fun vs hv => absurd ⟨vs, hv⟩ h, fun _ _ => rfl⟩

theorem find_mem {α : Type} : ∀ {l : List (Path × α)} {p : Path} {x : α}, (l.map (·.1)).Nodup → (p, x) ∈ l → find l p = some x
  | [], _, _, _, h => by simp at h
  | (q, y) :: l, p, x, hn, h => by
    rw [List.map_cons, List.nodup_cons] at hn
    by_cases e : q = p
    · subst e
      rcases List.mem_cons.1 h with h | h
      · cases h; simp [find]
      · exact absurd (List.mem_map.2 ⟨_, h, rfl⟩) hn.1
    · rcases List.mem_cons.1 h with h | h
      · cases h; exact absurd rfl e
      · have := find_mem hn.2 h
        simp only [find, List.find?_cons, e, decide_false] at this ⊢
        exact this

/-- The same, for a given interpretation of the problem. -/
theorem sound_at {alnum : Char → Bool} (hu : alnum '_' = false) (hS : Faithful (d.ctx alnum) S U pr) (hA : Agree (d.ctx alnum) S U P)
    (hL : ∀ s d f, P.letin s d f = f d)
    (hd : OverDump (d.ctx alnum) d U pr) (hn : NamesFine d U) {Ps : List String} (hP : Ps.Pairwise (· < ·)) (hw : WfDump (d.ctx alnum) d Ps)
    {r : AoO (List Stm)} (hr : convDump alnum d = .ok r) (i : Nat) (hi : i < Ps.length) {T : D → Prop}
    (hM : SqModel (d.ctx alnum) d S Ps[i] T) :
    ∃ l, r.get i = some l ∧ CvModel T P l ∧ (∃ q o, Stm.assert .query q o ∈ l) ∧
      ∀ q o, Stm.assert .query q o ∈ l → ∀ ρ e, pev P e q = goal (d.ctx alnum) d S Ps[i] ρ := by
  obtain ⟨l, types, cells, names, funs, macs, defs, axs, steps, ords, crypto, q, hl, hc⟩ := C80_contents hu hS hA hL hd hP hw hr i hi
  have hinv : ∀ b ∈ d.actions, b.indices = vars b.action := fun b hb => (hw.actions b hb).inv
  have hmacs : ∀ p m, (p, m) ∈ d.macs → (d.ctx alnum).macs p = some m.data := by
    intro p m h
    simp only [Dump.ctx, find_mem hn.keys h, Option.map_some]
  generalize Ps[i] = sys at hM hc ⊢
  generalize d.ctx alnum = C at hS hd hw hM hA hc hmacs ⊢
  refine ⟨l, hl, ?_, ?_, ?_⟩
  -- where a statement comes from
  all_goals
    have src : ∀ s ∈ l, (∃ n o, s = .type n o) ∨ (∃ n a t o, s = .cell n a t o) ∨ (∃ n a t o, s = .func n a t o) ∨
        (∃ e ∈ globals d, MacOf C S P sys e.1 e.2.1 e.2.2 s) ∨ (∃ t ∈ pairAxioms, s = .assert .assert t []) ∨
        (∃ a ∈ d.actions, StepOf C d S P sys a s) ∨ (∃ a b c d e f g, s = .order a b c d e f g) ∨ (∃ a b c, s = .crypto a b c) ∨
        s = .assert .query q [] := by
      intro s hs
      rw [hc.all] at hs
      simp only [List.mem_append, List.mem_singleton] at hs
      rcases hs with (((((((h | h) | h | h) | h | h) | h) | h) | h) | h) | h
      · obtain ⟨ts, -, e⟩ := hc.types
        rw [e] at h
        simp only [List.mem_append, List.mem_map, List.mem_singleton] at h
        rcases h with ⟨t, -, rfl⟩ | rfl
        · exact Or.inl ⟨_, _, rfl⟩
        · exact Or.inl ⟨_, _, rfl⟩
      · obtain ⟨c, -, a, o, rfl, -⟩ := mem_fa2 hc.cells h
        exact Or.inr (Or.inl ⟨_, _, _, _, rfl⟩)
      · obtain ⟨ns, -, hns⟩ := hc.names
        obtain ⟨c, -, a, rfl, -⟩ := mem_fa2 hns h
        exact Or.inr (Or.inr (Or.inl ⟨_, _, _, _, rfl⟩))
      · obtain ⟨ns, -, hns⟩ := hc.funs
        obtain ⟨c, -, a, o, rfl, -⟩ := mem_fa2 hns h
        exact Or.inr (Or.inr (Or.inl ⟨_, _, _, _, rfl⟩))
      · exact Or.inr (Or.inr (Or.inr (Or.inl (mem_fa2 hc.macs h))))
      · have := hc.defs
        rw [hn.abstract] at this
        cases this
        simp at h
      · rw [hc.axs] at h
        obtain ⟨t, ht, rfl⟩ := List.mem_map.1 h
        exact Or.inr (Or.inr (Or.inr (Or.inr (Or.inl ⟨t, ht, rfl⟩))))
      · exact Or.inr (Or.inr (Or.inr (Or.inr (Or.inr (Or.inl (mem_fa2 hc.steps h))))))
      · obtain ⟨r, -, o, -, ho⟩ := mem_fa2 hc.ords h
        obtain ⟨v, a, b, op, rfl⟩ : ∃ v a b op, s = .order .all v none a op b [] := by cases ho <;> exact ⟨_, _, _, _, rfl⟩
        exact Or.inr (Or.inr (Or.inr (Or.inr (Or.inr (Or.inr (Or.inl ⟨_, _, _, _, _, _, _, rfl⟩))))))
      · have := (hc.crypto s).1 h
        rcases this with h | ⟨e, -, h⟩
        · obtain ⟨n, -, rfl⟩ := List.mem_map.1 h
          exact Or.inr (Or.inr (Or.inr (Or.inr (Or.inr (Or.inr (Or.inr (Or.inl ⟨_, _, _, rfl⟩)))))))
        · cases h
          · exact Or.inr (Or.inr (Or.inr (Or.inr (Or.inr (Or.inr (Or.inr (Or.inl ⟨_, _, _, rfl⟩)))))))
          · exact Or.inr (Or.inr (Or.inl ⟨_, _, _, _, rfl⟩))
          · exact Or.inr (Or.inr (Or.inr (Or.inr (Or.inr (Or.inr (Or.inr (Or.inl ⟨_, _, _, rfl⟩)))))))
          · exact Or.inr (Or.inr (Or.inr (Or.inr (Or.inr (Or.inr (Or.inr (Or.inl ⟨_, _, _, rfl⟩)))))))
          · exact Or.inr (Or.inr (Or.inr (Or.inr (Or.inr (Or.inr (Or.inr (Or.inl ⟨_, _, _, rfl⟩)))))))
      · exact Or.inr (Or.inr (Or.inr (Or.inr (Or.inr (Or.inr (Or.inr (Or.inr h)))))))
  · have stp : ∀ n args cond msg asgs o, Stm.step n args cond msg asgs o ∈ l → ∃ a ∈ d.actions, n = C.san .step a.name.toStr ∧
        Params C a.indices args ∧ MeansAt C d S P sys a a.cond cond ∧ MeansAt C d S P sys a a.output msg ∧
        ∃ as, asgs = some as ∧ List.Forall₂ (UpdOf C S P sys a) a.updates as := by
      intro n args cond msg asgs o h
      rcases src _ h with ⟨_, _, h⟩ | ⟨_, _, _, _, h⟩ | ⟨_, _, _, _, h⟩ | ⟨_, _, _, _, h, _⟩ | ⟨_, _, h⟩ | ⟨a, ha, h⟩ | ⟨_, _, _, _, _, _, _, h⟩ |
        ⟨_, _, _, h⟩ | h
      case inr.inr.inr.inr.inr.inl =>
        obtain ⟨args', cond', msg', asgs', e, h1, h2, h3, h4⟩ := h
        cases e
        exact ⟨a, ha, rfl, h1, h2, h3, asgs', rfl, h4⟩
      all_goals cases h
    have hact : ∀ a ∈ d.actions, P.fn (C.san .step a.name.toStr) = S.act a.name := fun a ha => hA.sym _ (hd.acts a ha)
    have hn1 : C.san .mac outputP.toStr = "msg" := by
      simp only [Ctx.san, sanitize, show remap outputP.toStr = some "msg" by decide +kernel]
    have hn2 : C.san .mac condP.toStr = "cond" := by
      simp only [Ctx.san, sanitize, show remap condP.toStr = some "cond" by decide +kernel]
    have hout : ∀ t, P.fn "msg" [t] = S.mac outputP [] t := by
      intro t
      have := hA.sym _ hn.protocol.1
      simp only [hn1] at this
      rw [this]; rfl
    have hcond : ∀ t, P.fn "cond" [t] = S.mac condP [] t := by
      intro t
      have := hA.sym _ hn.protocol.2
      simp only [hn2] at this
      rw [this]; rfl
    refine ⟨?_, ?_, ?_, ?_, ?_⟩
    · intro n args cond msg asgs o h e he
      obtain ⟨a, ha, rfl, h1, h2, h3, -⟩ := stp n args cond msg asgs o h
      obtain ⟨ρ, hρ, hag⟩ := inputs_exist (S := S) hd hn hinv ha fun x => (e (C.san .variable x)).getD P.junk
      have hse : SameEnv C (a.indices.map JVar.name) ρ e := by
        intro x hx
        have := sameEnv_of (j := P.junk) h1 (hn.indices a ha) he x hx
        rw [hag x hx]; exact this
      rw [params_vals h1 hse, hact a ha, hout, hM.out a ha ρ hρ]
      exact (h3 ρ e hse hρ).symm
    · intro n args cond msg asgs o h e he
      obtain ⟨a, ha, rfl, h1, h2, h3, -⟩ := stp n args cond msg asgs o h
      obtain ⟨ρ, hρ, hag⟩ := inputs_exist (S := S) hd hn hinv ha fun x => (e (C.san .variable x)).getD P.junk
      have hse : SameEnv C (a.indices.map JVar.name) ρ e := by
        intro x hx
        have := sameEnv_of (j := P.junk) h1 (hn.indices a ha) he x hx
        rw [hag x hx]; exact this
      rw [params_vals h1 hse, hact a ha, hcond, hM.cond a ha ρ hρ]
      exact (h2 ρ e hse hρ).symm
    · intro n args cond msg asgs o h s hs c xs hcell e he
      obtain ⟨a, ha, rfl, h1, -, -, as, e1, h4⟩ := stp n args cond msg _ o h
      cases e1
      obtain ⟨u, hu', xs', vs, h5, h6, h7, h8, h9⟩ := mem_fa2 h4 hs
      rw [h5] at hcell
      cases hcell
      obtain ⟨hU, hfx⟩ := hn.cells a ha u hu'
      have hse : SameEnv C ((vs ++ a.indices).map JVar.name) (fun x => (e (C.san .variable x)).getD P.junk) e := by
        intro x hx
        rw [List.map_append, List.mem_append] at hx
        rcases hx with hx | hx
        · refine sameEnv_of h6 (fun v hv => ?_) (fun b hb => he b (by simp [hb])) x hx
          obtain ⟨⟨t, ht, ho⟩, -⟩ := (h7 v).1 hv
          exact hfx t ht v ho
        · exact sameEnv_of h1 (hn.indices a ha) (fun b hb => he b (by simp [hb])) x hx
      have hse' : SameEnv C (a.indices.map JVar.name) (fun x => (e (C.san .variable x)).getD P.junk) e :=
        fun x hx => hse x (by rw [List.map_append]; exact List.mem_append_right _ hx)
      have hxs : xs.map (pev P e) = u.args.map (sev C S sys fun x => (e (C.san .variable x)).getD P.junk) := by
        clear hs h5 h7 h9 hfx
        generalize u.args = us at h8
        induction h8 with
        | nil => rfl
        | @cons t y l ys hty _ ih => simp only [List.map_cons]; rw [hty _ e hse, ih]
      have hf : P.fn (C.san .mac u.symb.toStr) = S.val C (.mac u.symb) := hA.sym _ hU
      rw [params_vals h1 hse', hact a ha, hf, h9 _ e hse, ← hM.upd a ha u hu', hxs]
      simp [SStr.val]
    · intro n args t o h e he
      rcases src _ h with ⟨_, _, h⟩ | ⟨_, _, _, _, h⟩ | ⟨_, _, _, _, h⟩ | ⟨g, hg, h⟩ | ⟨_, _, h⟩ | ⟨_, _, _, _, _, _, h, _⟩ |
        ⟨_, _, _, _, _, _, _, h⟩ | ⟨_, _, _, h⟩ | h
      case inr.inr.inr.inl =>
        obtain ⟨args', t', e1, h1, h2⟩ := h
        cases e1
        obtain ⟨hU, hfx⟩ := hn.params g hg
        obtain ⟨⟨p, m⟩, hm, hgm⟩ := List.mem_filterMap.1 hg
        cases m with
        | protocol => cases hgm
        | structured => cases hgm
        | state => cases hgm
        | global inputs indices ts body =>
          simp only [Option.some.injEq] at hgm
          subst hgm
          have hse := sameEnv_of (j := P.junk) h1 hfx he
          have hf : P.mac (C.san .function p.toStr) = S.val C (.glob p) := hA.sym _ hU
          rw [params_vals h1 hse, hf, h2 _ e hse, ← hM.mac p inputs indices ts body hm]
          have hk := hmacs p _ hm
          simp only [MacDef.data, MacDef.inputs, dummy_eq] at hk
          simp only [SStr.val, hk, List.map_append, List.map_cons, List.map_nil]
          generalize (inputs.filter fun v => decide (v.name ≠ "$dummy")) = ins
          generalize hρ : (fun x => (e (C.san .variable x)).getD P.junk) = ρ
          have hρ' : ∀ x, (e (C.san .variable x)).getD P.junk = ρ x := fun x => congrFun hρ x
          simp only [hρ']
          have hl : (indices.map (fun v => ρ v.name) ++ ins.map (fun v => ρ v.name) ++ [ρ ts.name]).length - 1 - ins.length = indices.length := by
            simp
          rw [hl, List.append_assoc, List.take_left' (by simp), List.drop_left' (by simp)]
          simp
      all_goals cases h
    · intro t o h e
      have hx : t ∈ pairAxioms := by
        rcases src _ h with ⟨_, _, h⟩ | ⟨_, _, _, _, h⟩ | ⟨_, _, _, _, h⟩ | ⟨_, _, _, _, h, _⟩ | ⟨t', ht', h⟩ | ⟨_, _, _, _, _, _, h, _⟩ |
          ⟨_, _, _, _, _, _, _, h⟩ | ⟨_, _, _, h⟩ | h
        case inr.inr.inr.inr.inl => cases h; exact ht'
        all_goals cases h
      have fnv : ∀ p ∈ [pairP, fstP, sndP], P.fn p.symb = S.val C (.op p) := by
        intro p hp
        have hnm : C.san .function p.toStr = p.symb ∧ p.symb ≠ "if" ∧ Op.get p.symb = none := by
          have : ∀ p ∈ [pairP, fstP, sndP], remap p.toStr = some p.symb ∧ p.symb ≠ "if" ∧ Op.get p.symb = none := by decide +kernel
          simp only [Ctx.san, sanitize, (this p hp).1]
          exact ⟨trivial, (this p hp).2⟩
        have := (hA.sym _ (hn.pairs p (by simp at hp ⊢; tauto))).2.2
        rw [hnm.1] at this
        exact this hnm.2.1 hnm.2.2
      have eqv : P.op .eq = S.val C (.op eqP) := by
        have hnm : C.san .function eqP.toStr = "=" := by
          simp only [Ctx.san, sanitize, show remap eqP.toStr = some "=" by decide +kernel]
        have := (hA.sym _ (hn.pairs eqP (by simp))).2.1 .eq
        rw [hnm] at this
        exact this (by decide) (by decide +kernel)
      have qv : P.quant .all ["Message", "Message"] = S.quant .all [.message, .message] :=
        hA.quant .all [.message, .message] _ (by simp [TyFine]) rfl
      have e0 : Tm.mkApp "==" = Tm.infx .eq := by funext l; simp [Tm.mkApp, show Op.get "==" = some .eq by decide +kernel]
      have e1 : Tm.mkApp "fst" = Tm.app "fst" := by funext l; simp [Tm.mkApp, show Op.get "fst" = none by decide +kernel]
      have e2 : Tm.mkApp "snd" = Tm.app "snd" := by funext l; simp [Tm.mkApp, show Op.get "snd" = none by decide +kernel]
      have e3 : Tm.mkApp "pair" = Tm.app "pair" := by funext l; simp [Tm.mkApp, show Op.get "pair" = none by decide +kernel]
      have f1 : P.fn "fst" = S.val C (.op fstP) := fnv fstP (by simp)
      have f2 : P.fn "snd" = S.val C (.op sndP) := fnv sndP (by simp)
      have f3 : P.fn "pair" = S.val C (.op pairP) := fnv pairP (by simp)
      simp only [pairAxioms, e0, e1, e2, e3, List.mem_cons, List.not_mem_nil, or_false] at hx
      rcases hx with rfl | rfl
      · have := hM.pair.1
        simp only [pev, pevs, List.map_cons, List.map_nil, qv, eqv, f1, f3, setBnds, set1, hA.junk]
        exact this
      · have := hM.pair.2
        simp only [pev, pevs, List.map_cons, List.map_nil, qv, eqv, f2, f3, setBnds, set1, hA.junk]
        exact this
  · exact ⟨q, [], by rw [hc.all]; simp⟩
  · intro q' o h ρ e
    have : q' = q := by
      rcases src _ h with ⟨_, _, h⟩ | ⟨_, _, _, _, h⟩ | ⟨_, _, _, _, h⟩ | ⟨_, _, _, _, h, _⟩ | ⟨_, _, h⟩ | ⟨_, _, _, _, _, _, h, _⟩ |
        ⟨_, _, _, _, _, _, _, h⟩ | ⟨_, _, _, h⟩ | h
      all_goals cases h
      rfl
    subst this
    exact hc.query ρ e

/-- **C80.** Models of a Squirrel file are models of the problems made of it, with the same goal: from an interpretation of the file's symbols
in which the actions, updates and macros of a system are as described, one gets an interpretation of the problem in which its steps, assignments,
macros and axioms are as described, and the query means the goal. -/
theorem C80_sound_partial {alnum : Char → Bool} (hu : alnum '_' = false) (hS : Faithful (d.ctx alnum) S U pr)
    (hd : OverDump (d.ctx alnum) d U pr) (hn : NamesFine d U) {Ps : List String} (hP : Ps.Pairwise (· < ·)) (hw : WfDump (d.ctx alnum) d Ps)
    {r : AoO (List Stm)} (hr : convDump alnum d = .ok r) (i : Nat) (hi : i < Ps.length) {T : D → Prop}
    (hM : SqModel (d.ctx alnum) d S Ps[i] T) :
    ∃ l P, r.get i = some l ∧ CvModel T P l ∧ (∃ q o, Stm.assert .query q o ∈ l) ∧
      ∀ q o, Stm.assert .query q o ∈ l → ∀ ρ e, pev P e q = goal (d.ctx alnum) d S Ps[i] ρ := by
  obtain ⟨P, hA, hL⟩ := C79_interpretation (C := d.ctx alnum) hu hS
  obtain ⟨l, h⟩ := sound_at hu hS hA hL hd hn hP hw hr i hi hM
  exact ⟨l, P, h⟩

end

/-- **C80.** If the query of the problem of a system holds in every model of that problem, then the goal of the file holds in every model of the
file, for that system. -/
theorem C80_valid_partial {d : Dump} {D : Type} {S : SStr D} {U : Sym → Prop} {pr : Bool} {alnum : Char → Bool} (hu : alnum '_' = false)
    (hS : Faithful (d.ctx alnum) S U pr) (hd : OverDump (d.ctx alnum) d U pr) (hn : NamesFine d U) {Ps : List String} (hP : Ps.Pairwise (· < ·))
    (hw : WfDump (d.ctx alnum) d Ps) {r : AoO (List Stm)} (hr : convDump alnum d = .ok r) (i : Nat) (hi : i < Ps.length) {T : D → Prop}
    (hv : ∀ l, r.get i = some l → ∀ P : PStr D, CvModel T P l → ∀ q o, Stm.assert .query q o ∈ l → ∀ e, T (pev P e q))
    (hM : SqModel (d.ctx alnum) d S Ps[i] T) (ρ : String → D) : T (goal (d.ctx alnum) d S Ps[i] ρ) := by
  obtain ⟨l, P, hl, h1, ⟨q, o, hq⟩, h2⟩ := C80_sound_partial hu hS hd hn hP hw hr i hi hM
  have := hv l hl P h1 q o hq fun _ => none
  rwa [h2 q o hq ρ] at this

/-! ### A model of the sample file -/

/-- Values of the sample: truth values, pairs, time points, and terms. -/
inductive Dv
  | tt | ff
  | pair (x y : Dv)
  | act (p : Path) (l : List Dv)
  | app (p : Path) (l : List Dv)

open Classical in
/-- A model of the sample file for its system `B`: in `a(i)`, the message is `n(i)` and the cell `c(i)` gets `empty`. -/
noncomputable def exMod : SStr Dv where
  op p ds := match p.symb, ds with
    | "true", [] => .tt
    | "=", [x, y] => if x = y then .tt else .ff
    | "&&", [x, y] => if x = .tt ∧ y = .tt then .tt else .ff
    | "=>", [x, y] => if x = .tt → y = .tt then .tt else .ff
    | "pair", [x, y] => .pair x y
    | "fst", [.pair x _] => x
    | "snd", [.pair _ y] => y
    | _, _ => .app p ds
  nm p ds := .app p ds
  act p ds := .act p ds
  mac p ds t := match p.symb, ds, t with
    | "output", [], .act q [i] => if q = sy "a" then .app (sy "n") [i] else .app p [t]
    | "output", [], .act q [] => if q = sy "init" then .app emptyP [] else .app p [t]
    | "cond", [], _ => .tt
    | "c", [_], _ => .app emptyP []
    | _, _, _ => .app p (ds ++ [t])
  glob _ ds is _ := .app (sy "h") (is ++ [.app (sy "n") ds])
  tup l := l.foldl (fun acc d => .pair d acc) (.app emptyP [])
  proj _ d := d
  quant _ l f := if ∀ ds : List Dv, ds.length = l.length → f ds = .tt then .tt else .ff
  find _ _ _ d := d
  junk := .ff

/-- The symbols of the sample file. -/
def exU : List Sym :=
  (["=", "happens", "true", "empty", "h", "pair", "fst", "snd", "&&", "=>"].map fun s => Sym.op (sy s)) ++ [.nm (sy "n")] ++
  (["input", "output", "cond", "c"].map fun s => Sym.mac (sy s)) ++ [.glob (sy "g"), .act (sy "init"), .act (sy "a")]

deriving instance DecidableEq for Sym

instance : DecidablePred Sym.isFun := fun a => by cases a <;> simp only [Sym.isFun] <;> infer_instance

instance (a b : Sym) : Decidable (Clash a b) := by unfold Clash; infer_instance

theorem exMod_faithful : Faithful (exDump.ctx exAln) exMod (· ∈ exU) false where
  valid := by decide +kernel
  apart := by
    have : ∀ a ∈ exU, ∀ b ∈ exU, Clash a b → a = b := by decide +kernel
    intro a b ha hb h
    rw [this a ha b hb h]
  quant := by
    intro k l l' h
    have : l.length = l'.length := h.length_eq
    funext f
    simp only [exMod]
    congr 1
    rw [this]
  find := fun _ _ _ => rfl
  tup := by
    intro l
    have h1 : takesTuple ((exDump.ctx exAln).opArgs pairP) = false := by decide +kernel
    have h2 : takesTuple ((exDump.ctx exAln).opArgs emptyP) = false := by decide +kernel
    simp only [SStr.val, h1, h2]
    rfl
  proj := by simp

theorem exDump_inputs {a : JAct} {vs : List JVar} (ha : a ∈ exDump.actions) (h : HasInputs exDump a vs) :
    a.globals = [sy "g"] ∧ vs = [⟨"x", .message⟩] := by
  have h' := hasInputs_iff h
  simp only [exDump, List.mem_cons, List.not_mem_nil, or_false] at ha
  rcases ha with rfl | rfl
  · obtain ⟨pre, g, post, _, _, _, _, h, _⟩ := h
    simp at h
  · refine ⟨rfl, ?_⟩
    rw [← h']
    decide +kernel

theorem exDump_over : OverDump (exDump.ctx exAln) exDump (· ∈ exU) false := by
  have tk : ∀ p ∈ ["=", "happens", "true", "empty", "h", "&&", "=>"], takesTuple ((exDump.ctx exAln).opArgs (sy p)) = false := by decide +kernel
  have tn : takesTuple ((exDump.ctx exAln).nameArgs (sy "n")) = false := by decide +kernel
  have i_ : ∀ Γ, "i" ∈ Γ → Over (exDump.ctx exAln) (· ∈ exU) false Γ (.var exI) := fun Γ h => .var _ _ h
  have c0 : ∀ Γ p, p ∈ ["true", "empty"] → Over (exDump.ctx exAln) (· ∈ exU) false Γ (.app (.fun_ (sy p)) []) := by
    intro Γ p hp
    refine .app _ _ _ ?_ (tk p (by simp at hp ⊢; tauto)) (by simp)
    simp only [List.mem_cons, List.not_mem_nil, or_false] at hp
    rcases hp with rfl | rfl <;> decide +kernel
  have nm : ∀ Γ, "i" ∈ Γ → Over (exDump.ctx exAln) (· ∈ exU) false Γ (.name (sy "n") [.var exI]) := fun Γ h =>
    .name _ _ _ (by decide +kernel) tn (by simpa using i_ Γ h)
  have at_ : ∀ Γ, "i" ∈ Γ → Over (exDump.ctx exAln) (· ∈ exU) false Γ (.action (sy "a") [.var exI]) := fun Γ h =>
    .action _ _ _ (by decide +kernel) (by simpa using i_ Γ h)
  refine { flows := by decide +kernel, acts := by decide +kernel, input := ⟨by decide +kernel, ?_⟩, isMac := by decide +kernel, names := ?_, cond := ?_,
           output := ?_, updArgs := ?_, updBody := ?_, macs := ?_, ops := by intro e h; simp [concretes, exDump] at h,
           logic := by decide +kernel, vars := ?_, hyps := ?_, query := ?_ }
  · intro vs h
    have : (exDump.ctx exAln).macs inputP = some .protocol := by rfl
    rw [this] at h; cases h
  · intro a ha vs hv v hv'
    obtain ⟨-, rfl⟩ := exDump_inputs ha hv
    simp only [List.mem_singleton] at hv'
    subst hv'
    decide
  · intro a ha vs _
    simp only [exDump, List.mem_cons, List.not_mem_nil, or_false] at ha
    rcases ha with rfl | rfl <;> exact c0 _ "true" (by simp)
  · intro a ha vs hv
    have ha' := ha
    simp only [exDump, List.mem_cons, List.not_mem_nil, or_false] at ha
    rcases ha with rfl | rfl
    · exact c0 _ "empty" (by simp)
    · have hx : "x" ∈ vs.map JVar.name := by
        rcases hv with hv | ⟨-, hv⟩
        · obtain ⟨-, rfl⟩ := exDump_inputs ha' hv; simp
        · exact absurd ⟨[], sy "g", [], _, _, _, _, rfl, by simp, rfl, rfl⟩ (hv _)
      refine .diff _ _ ?_
      simp only [List.mem_cons, List.not_mem_nil, or_false]
      rintro t (rfl | rfl)
      · exact nm _ (by simp [exI])
      · refine .glob _ _ [⟨"x", .message⟩] _ _ (by decide +kernel) (by rfl) (by simpa using Or.inl (by simpa using hx)) ?_
          (at_ _ (by simp [exI]))
        simpa using i_ _ (by simp [exI])
  · intro a ha u hu t ht Γ hΓ
    simp only [exDump, List.mem_cons, List.not_mem_nil, or_false] at ha
    rcases ha with rfl | rfl
    · simp at hu
    · simp only [List.mem_singleton] at hu
      subst hu
      simp only [List.mem_singleton] at ht
      subst ht
      exact i_ Γ (hΓ exI (by simp))
  · intro a ha u hu Γ hΓ
    simp only [exDump, List.mem_cons, List.not_mem_nil, or_false] at ha
    rcases ha with rfl | rfl
    · simp at hu
    · simp only [List.mem_singleton] at hu
      subst hu
      refine .diff _ _ ?_
      simp only [List.mem_cons, List.not_mem_nil, or_false]
      rintro t (rfl | rfl)
      · exact nm _ (hΓ exI (by simp))
      · exact c0 _ "empty" (by simp)
  · intro e he
    have : e = (sy "g", [exI, ⟨"x", .message⟩, exTau], .app (.fun_ (sy "h")) [exVar "x", .name (sy "n") [.var exI]]) := by
      simpa [globals, exDump] using he
    subst this
    refine .app _ _ _ (by decide +kernel) (tk "h" (by simp)) ?_
    simp only [List.mem_cons, List.not_mem_nil, or_false]
    rintro t (rfl | rfl)
    · exact .var _ _ (by simp [exI])
    · exact nm _ (by simp [exI])
  · intro v hv
    simp only [exDump, List.mem_cons, List.not_mem_nil, or_false] at hv
    rcases hv with rfl | rfl | rfl <;> exact ⟨by decide, trivial⟩
  · intro t ht
    simp only [exDump, List.mem_cons, List.not_mem_nil, or_false] at ht
    subst ht
    exact .app _ _ _ (by decide +kernel) (tk "happens" (by simp)) (by simpa using at_ _ (by simp [exDump, exI]))
  · refine .app _ _ _ (by decide +kernel) (tk "=" (by simp)) ?_
    simp only [List.mem_cons, List.not_mem_nil, or_false]
    rintro t (rfl | rfl)
    · refine .diff _ _ ?_
      simp only [List.mem_cons, List.not_mem_nil, or_false]
      rintro t (rfl | rfl) <;> exact .var _ _ (by simp [exDump])
    · refine .mac _ _ _ _ (by decide +kernel) ?_ (fun _ => rfl) (by simp) (at_ _ (by simp [exDump, exI]))
      intro vs h
      have : (exDump.ctx exAln).macs (sy "output") = some .protocol := by rfl
      rw [this] at h; cases h

theorem exDump_names : NamesFine exDump (· ∈ exU) where
  indices := by decide +kernel
  inputs := by
    intro a ha vs hv
    obtain ⟨hg, rfl⟩ := exDump_inputs ha hv
    simp only [exDump, List.mem_cons, List.not_mem_nil, or_false] at ha
    rcases ha with rfl | rfl
    · simp at hg
    · exact ⟨by simp, by simp [exI]⟩
  cells := by
    intro a ha u hu
    simp only [exDump, List.mem_cons, List.not_mem_nil, or_false] at ha
    rcases ha with rfl | rfl
    · simp at hu
    · simp only [List.mem_singleton] at hu
      subst hu
      refine ⟨by decide +kernel, ?_⟩
      intro t ht v hv
      simp only [List.mem_singleton] at ht
      subst ht
      cases hv
      decide
  params := by
    intro e he
    have : e = (sy "g", [exI, ⟨"x", .message⟩, exTau], .app (.fun_ (sy "h")) [exVar "x", .name (sy "n") [.var exI]]) := by
      simpa [globals, exDump] using he
    subst this
    decide +kernel
  keys := by decide +kernel
  protocol := by decide +kernel
  pairs := by decide +kernel
  abstract := by simp [concretes, exDump]

theorem exMod_model : SqModel (exDump.ctx exAln) exDump exMod "B" (· = .tt) where
  out := by
    intro a ha ρ _
    simp only [exDump, List.mem_cons, List.not_mem_nil, or_false] at ha
    rcases ha with rfl | rfl
    · rfl
    · rfl
  cond := by
    intro a ha ρ _
    simp only [exDump, List.mem_cons, List.not_mem_nil, or_false] at ha
    rcases ha with rfl | rfl <;> rfl
  upd := by
    intro a ha u hu ρ
    simp only [exDump, List.mem_cons, List.not_mem_nil, or_false] at ha
    rcases ha with rfl | rfl
    · simp at hu
    · simp only [List.mem_singleton] at hu
      subst hu
      rfl
  mac := by
    intro p inputs indices ts body h ρ
    simp only [exDump, List.mem_cons, List.not_mem_nil, or_false, Prod.mk.injEq, reduceCtorEq, and_false, false_or] at h
    obtain ⟨rfl, h⟩ := h
    cases h
    rfl
  pair := by
    have h : ∀ p ∈ [pairP, fstP, sndP, eqP], takesTuple ((exDump.ctx exAln).opArgs p) = false := by decide +kernel
    constructor
    · simp only [fstAx, SStr.val, h pairP (by simp), h fstP (by simp), h eqP (by simp)]
      simp [exMod, pairP, fstP, eqP]
    · simp only [sndAx, SStr.val, h pairP (by simp), h sndP (by simp), h eqP (by simp)]
      simp [exMod, pairP, sndP, eqP]

/-- The sample file has a model, which is a model of its second problem. -/
example : ∃ r l P, convDump exAln exDump = .ok r ∧ r.get 1 = some l ∧ CvModel (· = Dv.tt) P l ∧ ∃ q o, Stm.assert .query q o ∈ l ∧
    ∀ ρ e, pev P e q = goal (exDump.ctx exAln) exDump exMod "B" ρ := by
  obtain ⟨r, hr, -⟩ := C77_total exAln (by simp) (by decide) exDump_wf exDump_supp
  obtain ⟨l, P, h1, h2, ⟨q, o, h3⟩, h4⟩ := C80_sound_partial (by decide) exMod_faithful exDump_over exDump_names (Ps := ["A", "B"]) (by decide)
    exDump_wf hr 1 (by simp) exMod_model
  exact ⟨r, l, P, hr, h1, h2, q, o, h3, h4 q o h3⟩

/-- The value of an input is not that of the action it is an input of: in the sample file, the input `x` of the macro `g` of the action `a(i)` is
the input of `init`, also when the inputs of `a(i)` and of `init` differ. -/
theorem C80_own_input_counterexample :
    ∃ (d : Dump) (r : AoO (List Stm)) (l : List Stm) (S : SStr Dv) (U : Sym → Prop) (P : PStr Dv) (args : List Bnd) (cond msg : Tm) (asgs : List Asg)
      (a : JAct), Faithful (d.ctx exAln) S U false ∧ Agree (d.ctx exAln) S U P ∧ convDump exAln d = .ok r ∧ r.get 0 = some l ∧
      a ∈ d.actions ∧ a.name = sy "a" ∧ a.action.length = 1 ∧
      Stm.step ((d.ctx exAln).san .step a.name.toStr) args cond msg (some asgs) [] ∈ l ∧
      (∀ e v, e "var_i" = some v → pev P e msg = S.glob (sy "g") [v] [S.mac inputP [] (S.act (sy "init") [])] (S.act (sy "a") [v])) ∧
      ∀ v, S.glob (sy "g") [v] [S.mac inputP [] (S.act (sy "init") [])] (S.act (sy "a") [v]) ≠
        S.glob (sy "g") [v] [S.mac inputP [] (S.act (sy "a") [v])] (S.act (sy "a") [v]) := by
  obtain ⟨r, hr, -⟩ := C77_total exAln (by simp) (by decide) exDump_wf exDump_supp
  obtain ⟨P, hA, hL⟩ := C79_interpretation (C := exDump.ctx exAln) (by decide) exMod_faithful
  obtain ⟨l, types, cells, names, funs, macs, defs, axs, steps, ords, crypto, q, hl, hc⟩ :=
    C80_contents (by decide) exMod_faithful hA hL exDump_over (Ps := ["A", "B"]) (by decide) exDump_wf hr 0 (by simp)
  have hst := hc.steps
  unfold exDump at hst
  change List.Forall₂ (StepOf (exDump.ctx exAln) exDump exMod P "A") [_, _] steps at hst
  rw [List.forall₂_cons_left_iff] at hst
  obtain ⟨s0, r0, -, hst, e0⟩ := hst
  rw [List.forall₂_cons_left_iff] at hst
  obtain ⟨s1, r1, ⟨args, cond, msg, asgs, e1, h1, h2, h3, h4⟩, hst, e2⟩ := hst
  refine ⟨exDump, r, l, exMod, _, P, args, cond, msg, asgs, _, exMod_faithful, hA, hr, hl, List.mem_cons_of_mem _ (List.mem_singleton.2 rfl), rfl, rfl,
    ?_, ?_, ?_⟩
  · rw [hc.all, e0, e2, e1]
    simp only [List.mem_append, List.mem_cons]
    simp
  · intro e v hv
    have := h3 (fun x => if x = "x" then exMod.mac inputP [] (exMod.act (sy "init") []) else v) e ?_ ?_
    · rw [this]
      rfl
    · intro x hx
      simp only [exI, List.map_cons, List.map_nil, List.mem_singleton] at hx
      subst hx
      refine ⟨by decide, ?_⟩
      rw [show (exDump.ctx exAln).san .variable "i" = "var_i" by decide +kernel, hv]
      rfl
    · intro vs hvs k w hk b hb hbb
      obtain ⟨-, rfl⟩ := exDump_inputs (List.mem_cons_of_mem _ (List.mem_singleton.2 rfl)) hvs
      cases k with
      | succ k => simp at hk
      | zero =>
        simp only [List.reverse_cons, List.reverse_nil, List.nil_append, List.getElem?_cons_zero, Option.some.injEq] at hk
        subst hk
        simp only [exDump, List.mem_cons, List.not_mem_nil, or_false] at hb
        rcases hb with rfl | rfl
        · rfl
        · simp at hbb
  · intro v
    simp [exMod, inputP, sy]

end Sq
end CV
