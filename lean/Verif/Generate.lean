import Verif.Protocol
import Verif.Smt
import Verif.Subterm
import Verif.IntCtxt
/-
Model of the assembly of the problem file: `Problem::generate` and `Problem::into_general_file`
(problem/problem/mod.rs:111-120, 173-253), `CryptoAssumption::generate` (problem/crypto_assumptions/mod.rs:51-68), the
declarations of `order::generate`, `evaluate::generate` and of the cryptographic assumptions, and `Subterm::declare`
(subterm/mod.rs:512-532). Paths are relative to /repo/crates/cryptovampire/src. The axioms themselves are those of the
other files. `none` is a panic, or fuel that runs out.
-/
namespace CV

mutual
/-- Replaces the symbols of a formula. Nothing in the code does so: the generators of Protocol.lean are stated over the
fixed symbols `Sym`, the others over any symbols. -/
def Fm.mapF {F G : Type} (ι : F → G) : Fm F → Fm G
  | .var v => .var v
  | .app f args => .app (ι f) (Fm.mapFs ι args)
  | .quant q vs b => .quant q vs (Fm.mapF ι b)
def Fm.mapFs {F G : Type} (ι : F → G) : List (Fm F) → List (Fm G)
  | [] => []
  | a :: as => Fm.mapF ι a :: Fm.mapFs ι as
end

namespace Gen
open Dep SmtM Ev Cry
variable {F : Type}

/-- Models `CryptoAssumption` (crypto_assumptions/mod.rs:39-49). `split` is the symbol made by `Function::new_spliting`
(uf_cma.rs:149, euf_cma.rs:115). -/
inductive Ass (F : Type)
  | ufCma (U : Uf F) (split : F)
  | eufCma (U : Euf F) (split : F)
  | intCtxt (X : Ctx F)
  | nonce (sym : Option Srt → Option F)
  | cell
  | unfolding (recursive direct : Bool)

/-- Models `Problem` (problem/problem/mod.rs:36-61) with the environment. `P`: the protocol, over the symbols `Sym`, that
`ι` sends to those of the problem. `builtin`, `isName`: `Function::is_builtin`, `is_always_datatype`
(formula/function/function.rs:443-448, 443-448). `dest f i`: the `i`-th destructor made by `new_unused_destructors`
(function.rs:155-175). `define`, `instances`: `define_subterm()`, `preprocess_instances()` of the environment;
`vampire`: `use_vampire_subterm()`. `fuel`: for `propagate`. The functions and sorts of the problem are those of `K.E`. -/
structure Prob (F : Type) where
  K : Pbl F
  I : Info F
  P : Protocol
  ι : Sym → F
  builtin : F → Bool
  isName : F → Bool
  dest : F → Nat → F
  crypto : List (Ass F)
  assertions : List (Fm F)
  query : Fm F
  vampire : Bool
  define : Bool
  instances : Bool
  fuel : Nat

/-! ### Sorts and symbols -/

/-- Models `InnerSort::is_datatype` (formula/sort/mod.rs:124-136). -/
def isDatatype (symbolic : Bool) : Srt → Bool
  | .name | .step => true
  | .message | .condition => symbolic
  | .bool | .bitstring | .index | .user _ => false

/-- Models `Sort::is_evaluated` (sort/mod.rs:100-106, sort/inner/base.rs:58-60). -/
def isEvaluated : Srt → Bool
  | .bool | .bitstring => true
  | _ => false

/-- The declared sorts (problem/mod.rs:184-190). -/
def Prob.sortDecls (P : Prob F) : List (Decl F) :=
  ((P.K.E.sorts.filter fun s => !(isDatatype P.K.E.symbolic s || s == .bool || isEvaluated s)).filter (· != .condition)).map .sort

/-- The test of problem/mod.rs:200. -/
def Prob.isCons (P : Prob F) (f : F) : Bool := P.isName f || (P.I.ta f && P.K.E.symbolic)

/-- `datatypes.entry(s).or_default().push(c)` (problem/mod.rs:202-204). Simplification: the map is a list in the order of
insertion; the code lists it in the order of the sorts. -/
def addCons {α : Type} (s : Srt) (c : α) : List (Srt × List α) → List (Srt × List α)
  | [] => [(s, [c])]
  | (s', l) :: m => if s' = s then (s', l ++ [c]) :: m else (s', l) :: addCons s c m

/-- `ConstructorDestructor::new_unused` (file_descriptior/declare.rs:31-42, function.rs:155-175) and
`fun.fast_outsort().unwrap()`. -/
def Prob.cons (P : Prob F) (f : F) : Option (Srt × F × List F) :=
  (P.K.E.L.out f).bind fun s => (P.I.insort f).map fun ss => (s, f, (List.range ss.length).map (P.dest f))

/-- The functions declared by the loop of problem/mod.rs:196-208. -/
def Prob.declared (P : Prob F) : List F := P.K.E.functions.filter fun f => !P.builtin f

/-- The datatypes (problem/mod.rs:192-218). -/
def Prob.datatypes (P : Prob F) : Option (List (Srt × List (F × List F))) :=
  (mapO P.cons (P.declared.filter P.isCons)).map fun l => l.foldl (fun m c => addCons c.1 c.2 m) []

/-- The declarations of problem/mod.rs:183-219. -/
def Prob.ownDecls (P : Prob F) : Option (List (Decl F)) :=
  P.datatypes.map fun ds =>
    P.sortDecls ++ (P.declared.filter fun f => !P.isCons f).map .free ++ [.datatypes ds]

/-! ### Evaluation -/

/-- The evaluated functions of the base functions (evaluate.rs:121-126). -/
def evalFun (E : Cfg F) (f : F) : Option F :=
  match E.kind f with
  | .base _ _ ev => some ev
  | _ => none

/-- `relevant_sorts` without those evaluated as booleans (evaluate.rs:62-75). -/
def evalSorts (E : Cfg F) : List (Srt × Srt) :=
  (E.sorts.filterMap fun s => (E.evalSort s).map fun e => (s, e)).filter (·.2 != .bool)

/-- The skolem functions of a `find … such that` (evaluate.rs:291-303). -/
def skolems (E : Cfg F) (f : F) : List F :=
  match E.kind f with
  | .fst bound _ _ _ _ => (List.range bound.length).map (E.skolem f)
  | _ => []

/-- The declarations of `evaluate::generate` (evaluate.rs:70-143, 303). -/
def evalDecls (E : Cfg F) : List (Decl F) :=
  (evalSorts E).map (fun p => if E.symbolic then .sort p.2 else .alias p.1 p.2) ++
  (if E.symbolic then [] else [.alias .bool .condition]) ++
  E.evs.map (fun p => .free p.2) ++
  (if E.symbolic && !E.noBitstring then
    (E.functions.filterMap (evalFun E)).map .free ++ (evalSorts E).map (fun p => .free (E.rewriteFn p.2))
    else []) ++
  (E.functions.flatMap (skolems E)).map .free

/-! ### Cryptographic assumptions -/

/-- Models `Subterm::declare` (subterm/mod.rs:512-532); the symbol of the `Vampire` kind does not depend on the sort.
`list_default_subterm_functions` (subterm/mod.rs:273-283) leaves out the ignored functions. -/
def Prob.subDecls [DecidableEq F] (P : Prob F) (S : Cry.Sub F) (ignored : List F) : List (Decl F) :=
  if S.sound then
    if P.vampire then
      ((S.sym none).map fun f => .subterm f (P.K.E.functions.filter fun g => P.I.dflt g && g ∉ ignored)).toList
    else (P.K.E.sorts.filterMap fun s => S.sym (some s)).map .free
  else []

variable [DecidableEq F]

/-- `with_general_crypto_axiom() && define_subterm()`: the first is the symbolic realm
(environement/environement.rs). -/
def Prob.general (P : Prob F) : Bool := P.K.E.symbolic && P.define

/-- The declarations of an assumption. -/
def Prob.assDecls (P : Prob F) : Ass F → List (Decl F)
  | .ufCma U split =>
    (if P.general then P.subDecls (U.key P.K) [U.mac, U.verify] ++ P.subDecls (U.main P.K) [U.mac, U.verify] ++ [.free split]
      else [])
  | .eufCma U split =>
    (if P.general then P.subDecls (U.key P.K) [U.sign, U.pk] ++ P.subDecls U.main [] ++ [.free split] else [])
  | .intCtxt X =>
    (if P.general then P.subDecls X.main [] ++ P.subDecls (X.key P.K) [X.enc, X.dec] ++ P.subDecls (X.rand P.K) [X.enc]
      else [])
  | .nonce sym => P.subDecls (nonceSub sym) []
  | .cell => []
  | .unfolding _ _ => []

/-- `if b { … }`, for a list that may panic. -/
def optO (b : Bool) (l : Option (List (Fm F))) : Option (List (Fm F)) := if b then l else some []

/-- Models `UfCma::generate` (uf_cma.rs:90-187). -/
def Prob.ufCma (P : Prob F) (U : Uf F) (split : F) : Option (List (Ax F)) :=
  match U.baseAx P.K, optO P.instances (U.preprocess P.K), optO P.define (U.defineSubterms P.K P.I P.vampire),
      optO P.general ((P.K.splitAx (U.key P.K) split).map ([·])),
      optO P.general ((P.K.generalAx (U.main P.K) (U.key P.K) U.mac U.verify split id).map ([·])) with
  | some a, some b, some c, some d, some e =>
    some (.comment "uf-cma".toList :: (a :: b ++ c ++ d).map .base ++ e.map (.ground .message))
  | _, _, _, _, _ => none

/-- Models `EufCma::generate` (euf_cma.rs:58-150). -/
def Prob.eufCma (P : Prob F) (U : Euf F) (split : F) : Option (List (Ax F)) :=
  match optO P.instances (U.preprocess P.K), optO P.define (U.defineSubterms P.K P.I P.vampire),
      optO P.general ((P.K.splitAx (U.key P.K) split).map ([·])),
      optO P.general ((P.K.generalAx U.main (U.key P.K) U.sign U.verify split (fun k => .app U.pk [k])).map ([·])) with
  | some b, some c, some d, some e =>
    some (.comment "euf-cma sign".toList :: (b ++ c ++ d).map .base ++ e.map (.ground .message))
  | _, _, _, _ => none

/-- Models `IntCtxt::generate` (int_ctxt.rs:62-184). -/
def Prob.intCtxt (P : Prob F) (X : Ctx F) : Option (List (Ax F)) :=
  match optO P.instances (X.preprocess P.K), optO P.define (X.defineSubterms P.K P.I P.vampire),
      optO P.general ((X.generalAx P.K).map ([·])), X.baseAx P.K with
  | some b, some c, some e, some a =>
    some (.comment "int ctxt".toList :: (b ++ c).map .base ++ e.map (.ground .message) ++ [.base a])
  | _, _, _, _ => none

/-- Models `CryptoAssumption::generate` (crypto_assumptions/mod.rs:51-68), with `Nonce::generate` (nonce.rs:20-88),
`Cell::generate` (cell.rs:23-118) and `Unfolding::generate` (unfolding.rs:77-88). -/
def Prob.ass (P : Prob F) : Ass F → Option (List (Ax F))
  | .ufCma U split => P.ufCma U split
  | .eufCma U split => P.eufCma U split
  | .intCtxt X => P.intCtxt X
  | .nonce sym => (P.K.nonce P.I P.vampire sym).map fun r =>
      .comment "nonce".toList :: r.1.map .base ++ [.ground .message r.2]
  | .cell => some (.comment "cells".toList :: (cellGenerate P.P).map fun φ => .base (φ.mapF P.ι))
  | .unfolding r d => (unfoldingGenerate r d P.P).map fun l =>
      .comment "unfolding".toList :: l.map fun φ => .base (φ.mapF P.ι)

/-! ### The file -/

/-- Models the assertions of `order::generate` (order.rs:18-134): those that do not depend on the protocol are
`theory`. -/
def Prob.order (P : Prob F) : Option (List (Ax F)) :=
  P.P.init.map fun i =>
    .comment "ordering".toList :: ((orderAxioms i.formula ++ [gtAxiom]).map fun φ => .theory (φ.mapF P.ι)) ++
      (P.P.steps.map (stepDistinct P.P.steps) ++ [stepExhaustive P.P.steps] ++ P.P.ordering.map orderingAxiom).map
        fun φ => .base (φ.mapF P.ι)

/-- The assertions of `Problem::generate` (problem/mod.rs:221-250). -/
def Prob.axioms (P : Prob F) : Option (List (Ax F)) :=
  match P.order, P.K.E.generate, flatO P.ass P.crypto, mapO (P.K.E.propagate P.fuel) P.assertions,
      P.K.E.propagate P.fuel P.query with
  | some o, some e, some c, some a, some q =>
    some (o ++ e ++ [.comment "crypto".toList] ++ c ++ [.comment "user asserts".toList] ++ a.map .base ++
      [.comment "query".toList, .query q])
  | _, _, _, _, _ => none

/-- The declarations of `Problem::generate`, before they are sorted. -/
def Prob.unsorted (P : Prob F) : Option (List (Decl F)) :=
  P.ownDecls.map fun l => l ++ [.sort .step] ++ evalDecls P.K.E ++ P.crypto.flatMap P.assDecls

/-- The place of a declaration: the derived order compares the constructors first (declare.rs:10-16). -/
def rank : Decl F → Nat
  | .sort _ => 0
  | .alias _ _ => 1
  | .datatypes _ => 2
  | .free _ => 3
  | .subterm _ _ => 4

/-- Models `declarations.sort()` (problem/mod.rs:252). Simplification: declarations of the same kind are left in order. -/
def sortDecl (l : List (Decl F)) : List (Decl F) :=
  (List.range 5).flatMap fun r => l.filter fun d => rank d == r

/-- Models `Problem::into_general_file` (problem/mod.rs:111-120). -/
def Prob.file (P : Prob F) : Option (GenFile F) :=
  match P.axioms, P.unsorted with
  | some a, some d => some ⟨a, sortDecl d⟩
  | _, _ => none

end Gen
end CV
