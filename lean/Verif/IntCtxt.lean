import Verif.Subterm
/-
Model of the axioms generated for integrity of ciphertexts: problem/crypto_assumptions/int_ctxt.rs. Paths are
relative to /repo/crates/cryptovampire/src. `none` is a panic, or a search or a unification that does not end with
the fuel given.
-/
namespace CV
namespace Cry
open Dep SmtM Ev
variable {F : Type} [DecidableEq F]

/-- Models `KeyAux` (int_ctxt.rs:481-537). A symbol applied to fewer arguments than indexed would panic; here the
arguments are searched. -/
def _root_.CV.Dep.Aux.ctxtKey (enc dec cast : F) : Aux F where
  sort := .name
  nexts
    | .app f args =>
      if f = dec ∧ (args[1]?).any (isApp cast) then args.take 1
      else if f = enc ∧ (args[2]?).any (isApp cast) then args.take 2
      else args
    | .quant _ _ b => [b]
    | .var _ => []

/-- Models `RandAux` (int_ctxt.rs:574-614), with the same simplification. -/
def _root_.CV.Dep.Aux.ctxtRand (enc cast : F) : Aux F where
  sort := .name
  nexts
    | .app f args =>
      if f = enc ∧ (args[1]?).any (isApp cast) then args.take 1 ++ (args.drop 2).take 1
      else args
    | .quant _ _ b => [b]
    | .var _ => []

/-- Models `IntCtxt` (int_ctxt.rs:48-58) with its three subterm predicates (int_ctxt.rs:78-116). -/
structure Ctx (F : Type) where
  enc : F
  dec : F
  fail : F
  mainSound : Bool
  mainSym : Option Srt → Option F
  keySound : Bool
  keySym : Option Srt → Option F
  randSound : Bool
  randSym : Option Srt → Option F

def Ctx.main (X : Ctx F) : Sub F := ⟨Aux.default .message, X.mainSound, X.mainSym⟩
def Ctx.key (X : Ctx F) (K : Pbl F) : Sub F := ⟨Aux.ctxtKey X.enc X.dec K.cast, X.keySound, X.keySym⟩
def Ctx.rand (X : Ctx F) (K : Pbl F) : Sub F := ⟨Aux.ctxtRand X.enc K.cast, X.randSound, X.randSym⟩

/-- Models `IntCtxtVerifCandidates` (int_ctxt.rs:473-476). -/
structure DecCand (F : Type) where
  cipher : Fm F
  key : Fm F
  deriving DecidableEq

/-- Models `IntCtxtEncCandidates` (int_ctxt.rs:479-483). -/
structure EncCand (F : Type) where
  rand : Fm F
  message : Fm F
  key : Fm F
  deriving DecidableEq

/-- The candidates a term gives (int_ctxt.rs:211-239), before renumbering. -/
def Ctx.found (X : Ctx F) (K : Pbl F) : Fm F → List (DecCand F)
  | .app f [cipher, key] => if f = X.dec then ((castArg K.cast key).map (DecCand.mk cipher)).toList else []
  | _ => []

/-- `candidates_verif` (int_ctxt.rs:207-244). -/
def Ctx.candidates (X : Ctx F) (K : Pbl F) : Option (List (DecCand F)) :=
  (flatO (allTerms K.fuel) K.tops).map fun l => uniq ((l.flatMap (X.found K)).map
    (fun c => ⟨c.cipher.translateVars K.maxVar, c.key.translateVars K.maxVar⟩))

/-- What a top-level term gives to `candidates_enc` (int_ctxt.rs:251-277): `none` is an index out of bounds,
`some none` when `side_condition` becomes false. -/
def Ctx.encOf (X : Ctx F) (K : Pbl F) (t : Fm F) : Option (Option (List (EncCand F))) :=
  match argsOf X.enc t with
  | none => some (some [])
  | some args =>
    (args[1]?).bind fun r =>
    match argsOf K.cast r with
    | none => some none
    | some rs => (args[0]?).bind fun m => (args[2]?).bind fun k => (rs[0]?).map fun r => some [⟨r, m, k⟩]

/-- `candidates_enc` (int_ctxt.rs:246-281): only the terms of `list_top_level_terms` themselves are considered, not
their subterms. The Boolean is `side_condition`. -/
def Ctx.encs (X : Ctx F) (K : Pbl F) : Option (List (EncCand F) × Bool) :=
  (mapO (X.encOf K) K.tops).map fun l =>
    (uniq (l.flatMap (fun o => o.getD [])), l.all Option.isSome)

/-- The local `unify` of int_ctxt.rs:345-355: `none`, the unification did not end; `some none`, no unifier. -/
def Pbl.unify (K : Pbl F) (a b : Fm F) : Option (Option (List (Fm F))) :=
  (mgu K.mfuel a b).map fun o => o.map fun u => ((u.asEqualities).bind (eqFormulas K.E.L)).getD [.app K.E.L.tru []]

/-- The body of the closure of `other_sc` (int_ctxt.rs:333-376), for a pair of encryptions. `n`: `max_var`. The
free variables are in the order of a `BTreeSet`; here in order of appearance. -/
def Pbl.pairSc (K : Pbl F) (kf : Fm F) (n : Nat) (a b : EncCand F) : Option (Option (Fm F)) :=
  (K.unify kf a.key).bind fun
  | none => some none
  | some uk =>
  let r2 := b.rand.translateVars n
  (K.unify a.rand r2).bind fun
  | none => some none
  | some ur =>
  let k2 := b.key.translateVars n
  (K.unify a.key k2).bind fun
  | none => some none
  | some uk12 =>
  let m2 := b.message.translateVars n
  (K.unify a.message m2).bind fun
  | none => some none
  | some um =>
  (flatO (CV.freeVars K.fuel) [a.rand, a.message, a.key, r2, m2, r2]).map fun vs =>
    some (.mkForall (uniq vs) (.app K.E.L.imp [K.E.L.ands (ur ++ uk), K.E.L.ands (uk12 ++ um)]))

/-- `tuple_combinations::<(_, _)>` (int_ctxt.rs:332). -/
def pairs {α : Type} : List α → List (α × α)
  | [] => []
  | a :: l => l.map (a, ·) ++ pairs l

/-- `other_sc` (int_ctxt.rs:326-379). -/
def Pbl.otherSc (K : Pbl F) (es : List (EncCand F)) (kf : Fm F) (n : Nat) : Option (Fm F) :=
  (mapO (fun p => K.pairSc kf n p.1 p.2) (pairs es)).map fun l => K.E.L.ands (l.filterMap id)

def DecCand.terms (c : DecCand F) : List (Fm F) := [c.cipher, c.key]

/-- The number of the variable `u` (int_ctxt.rs:295), with the simplification of `Pbl.uId`. -/
def Pbl.decId (K : Pbl F) (c : DecCand F) : Nat := maxVarOrMax ((c.terms.flatMap Fm.vars).map Var.id) K.maxVar

/-- The variables `u` and `r` (int_ctxt.rs:301-306). -/
def Pbl.decU (K : Pbl F) (c : DecCand F) : Var := ⟨K.decId c, .message⟩
def Pbl.decR (K : Pbl F) (c : DecCand F) : Var := ⟨K.decId c + 1, .name⟩

/-- `free_vars` (int_ctxt.rs:296-300). -/
def Pbl.decFree (K : Pbl F) (c : DecCand F) : Option (List Var) := (flatO (CV.freeVars K.fuel) c.terms).map uniq

/-- The search of the key (int_ctxt.rs:308-322). Only the first result is computed by the code; here the search is run
to its end. -/
def Ctx.keyOk (X : Ctx F) (K : Pbl F) (c : DecCand F) : Option Bool :=
  match Dep.search (K.search (X.key K) false) K.fuel c.key .noRecMacro (topLevel K.steps K.cells ++ [(c.cipher, [])]) with
  | none => none
  | some [] => some true
  | some (some _ :: _) => some false
  | some (none :: _) => none

/-- `enc(u, r, k)` (int_ctxt.rs:324-325). -/
def Ctx.target (X : Ctx F) (K : Pbl F) (c : DecCand F) : Fm F :=
  .app X.enc [.var (K.decU c), .app K.cast [.var (K.decR c)], .app K.cast [c.key]]

/-- `disjunction` (int_ctxt.rs:327-334) with `into_exist_formula`. -/
def Ctx.mainFormula (X : Ctx F) (K : Pbl F) (c : DecCand F) : Option (Fm F) :=
  (Dep.search (K.search X.main true) K.fuel (X.target K c) .all [(c.cipher, [])]).bind fun res =>
    (mapO id res).map (intoExist K.E.L)

/-- `dec(c, k) ≠ fail` (int_ctxt.rs:403). -/
def Ctx.accept (X : Ctx F) (K : Pbl F) (c k : Fm F) : Option (Fm F) :=
  match K.E.eval (.app X.dec [c, k]), K.E.eval (.app X.fail []) with
  | some a, some b => some (.app K.E.not [K.E.L.meq a b])
  | _, _ => none

/-- The axiom of a candidate, if any (int_ctxt.rs:283-420). -/
def Ctx.instanceAx (X : Ctx F) (K : Pbl F) (es : List (EncCand F)) (side : Bool) (c : DecCand F) : Option (List (Fm F)) :=
  if side then
    (X.keyOk K c).bind fun ok =>
      if ok then
        let kf := Fm.app K.cast [c.key]
        match K.decFree c, X.mainFormula K c, K.otherSc es kf (K.decId c + 2), X.accept K c.cipher kf,
            K.E.eval c.cipher, K.E.eval (X.target K c) with
        | some vs, some φ, some sc, some a, some ec, some et =>
          some [.mkForall vs (.app K.E.L.imp [.app K.E.L.and [a, sc],
            .mkExists [K.decU c, K.decR c] (.app K.E.L.and [φ, K.E.L.meq ec et])])]
        | _, _, _, _, _, _ => none
      else some []
  else some []

/-- Models `IntCtxt::preprocess` (int_ctxt.rs:183-423). -/
def Ctx.preprocess (X : Ctx F) (K : Pbl F) : Option (List (Fm F)) :=
  (X.candidates K).bind fun cs => (X.encs K).bind fun p => flatO (X.instanceAx K p.1 p.2) cs

/-- Decryption undoes encryption (int_ctxt.rs:174-182). -/
def Ctx.baseAx (X : Ctx F) (K : Pbl F) : Option (Fm F) :=
  let m : Var := ⟨0, .message⟩
  let c : Var := ⟨1, .message⟩
  let k : Var := ⟨2, .message⟩
  match K.E.eval (.var m), K.E.eval (.app X.dec [.app X.enc [.var m, .var c, .var k], .var k]) with
  | some a, some b => some (.mkForall [m, c, k] (K.E.L.meq a b))
  | _, _ => none

/-- The axiom over all messages (int_ctxt.rs:139-170), asserted for ground messages. `dec` is applied to the name `k`,
not to its cast. -/
def Ctx.generalAx (X : Ctx F) (K : Pbl F) : Option (Fm F) :=
  let c : Var := ⟨1, .message⟩
  let k : Var := ⟨3, .name⟩
  let m : Var := ⟨4, .message⟩
  let r : Var := ⟨5, .name⟩
  let m2 : Var := ⟨6, .message⟩
  let k2 : Var := ⟨7, .message⟩
  let r2 : Var := ⟨8, .message⟩
  let n : Var := ⟨9, .name⟩
  let cf (v : Var) : Fm F := .app K.cast [.var v]
  let c2 : Fm F := .app X.enc [.var m, cf r, cf k]
  match K.E.eval (.app X.dec [.var c, .var k]), K.E.eval (.app X.fail []), K.E.eval (.var c), K.E.eval c2,
      K.sub X.main c2 (.var c), K.sub (X.key K) (.var k) (.var c), K.sub (X.rand K) (.var r) (.var c),
      K.sub X.main (.app X.enc [.var m2, .var r2, cf k]) (.var c) with
  | some ed, some ef, some ec, some ec2, some f1, some f2, some f3, some f4 =>
    some (.mkForall [c, k] (.app K.E.L.imp [.app K.E.not [K.E.L.meq ed ef], .mkExists [m, r] (.app K.E.L.and [
      K.E.L.meq ec ec2,
      .app K.E.L.or [.app K.E.L.or [.app K.E.L.or [f1, f2], f3],
        .mkExists [m2, k2, r2] (.app K.E.L.and [f4, .app K.E.L.or [
          .mkForall [n] (.app K.E.not [K.E.L.meq (.var r2) (cf n)]),
          .app K.E.L.and [K.E.L.meq (.var r2) (cf r),
            .app K.E.L.or [.app K.E.not [K.E.L.meq (.var m2) (.var m)], .app K.E.not [K.E.L.meq (.var k2) (cf k)]]]]])]])]))
  | _, _, _, _, _, _, _, _ => none

/-- Models `define_subterms` (int_ctxt.rs:426-470), with the flags and the ignored functions of int_ctxt.rs:78-116. -/
def Ctx.defineSubterms (X : Ctx F) (K : Pbl F) (I : Info F) (vampire : Bool) : Option (List (Fm F)) :=
  if K.E.symbolic then
    match K.defineSub I vampire X.main .all [] true, K.defineSub I vampire (X.key K) .all [X.enc, X.dec] false,
        K.defineSub I vampire (X.rand K) .all [X.enc] false with
    | some a, some b, some c => some (a ++ b ++ c)
    | _, _, _ => none
  else some []

end Cry
end CV
