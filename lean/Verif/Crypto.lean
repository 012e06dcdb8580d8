import Verif.Evaluate
import Verif.Iterators
/-
Model of the axioms generated for unforgeability: problem/crypto_assumptions/uf_cma.rs (MACs) and
problem/crypto_assumptions/euf_cma.rs (signatures), for the instances found in the problem (`preprocess`) and
the axioms that range over all messages (`generate`). Paths are relative to /repo/crates/cryptovampire/src.
`none` is a panic, or a search that does not end with the fuel given.
-/
namespace CV
namespace Cry
open Dep SmtM Ev
variable {F : Type}

/-- What is common to the cryptographic axioms of a problem. `cast`: the function from names to messages
(`NameCasterCollection::cast_function` of `MESSAGE`). `eqTa`, `toBits`: `EQUALITY_TA`, `MESSAGE_TO_BITSTRING`
(formula/function/builtin.rs). `tops`: `Problem::list_top_level_terms` (problem/problem/mod.rs:82-97): the
assertions, the query, the lemmas, the contents of the protocol, the extra instances. -/
structure Pbl (F : Type) where
  E : Ev.Cfg F
  cast : F
  eqTa : F
  toBits : F
  steps : List (GStep F)
  cells : List (GCell F)
  G : PreGraph F
  tops : List (Fm F)
  fuel : Nat
  mfuel : Nat

/-- A subterm predicate (subterm/mod.rs:48-57): its way of descending, `is_sound_in_smt` (538-540) and its
symbols. -/
structure Sub (F : Type) where
  A : Aux F
  sound : Bool
  sym : Option Srt → Option F

/-- The parameters of `preprocess_terms` (subterm/mod.rs:393-431). -/
def Pbl.search (K : Pbl F) (S : Sub F) (keepGuard : Bool) : SearchCfg F :=
  ⟨K.E.L, K.steps, K.G, S.A, S.sound, S.sym, keepGuard, K.mfuel⟩

/-- Models `UfCmaCandidate` (uf_cma.rs:516-521) and `EufCandidate` (euf_cma.rs:342-347). -/
structure Cand (F : Type) where
  message : Fm F
  signature : Fm F
  key : Fm F
  deriving DecidableEq

/-- Models `Problem::max_var` (problem/problem/mod.rs:99-101). -/
def Pbl.maxVar (K : Pbl F) : Nat := CV.maxVar ((K.tops.flatMap Fm.vars).map Var.id)

/-- Models `prepare_candidate` (uf_cma.rs:546-571) and euf_cma.rs:175-177. -/
def Pbl.prepare (K : Pbl F) (c : Cand F) : Cand F :=
  ⟨c.message.translateVars K.maxVar, c.signature.translateVars K.maxVar, c.key.translateVars K.maxVar⟩

def Cand.terms (c : Cand F) : List (Fm F) := [c.message, c.signature, c.key]

/-- The number of the variable `u` (uf_cma.rs:341, euf_cma.rs:191). Simplification: the code enumerates the
variables of the candidate through an `Expander` (formula/formula/expanding_formula.rs), which replaces those
that are parameters of a quantifier symbol applied in the candidate; here none is replaced. The number is the same
(`C67_mac_fresh_partial`, `C67_signature_fresh_partial` in Expander.lean, where the code is followed). -/
def Pbl.uId (K : Pbl F) (c : Cand F) : Nat := maxVarOrMax ((c.terms.flatMap Fm.vars).map Var.id) K.maxVar

def Pbl.uVar (K : Pbl F) (c : Cand F) : Var := ⟨K.uId c, .message⟩

/-- `free_vars` (uf_cma.rs:342-346, euf_cma.rs:192-196). -/
def Pbl.freeVars (K : Pbl F) (c : Cand F) : Option (List Var) :=
  (flatO (CV.freeVars K.fuel) c.terms).map uniq

variable [DecidableEq F]

/-- `k_sc` (uf_cma.rs:358-370, euf_cma.rs:206-218): the key is not found in the protocol nor in the candidate.
Only the first result is computed by the code; here the search is run to its end. -/
def Pbl.keyOk (K : Pbl F) (S : Sub F) (c : Cand F) : Option Bool :=
  match Dep.search (K.search S false) K.fuel c.key .noRecMacro
      (topLevel K.steps K.cells ++ [(c.message, []), (c.signature, [])]) with
  | none => none
  | some [] => some true
  | some (some _ :: _) => some false
  | some (none :: _) => none

/-- `mformula` (uf_cma.rs:372-382, euf_cma.rs:220-230), for the term searched for. -/
def Pbl.mainFormula (K : Pbl F) (S : Sub F) (x : Fm F) (c : Cand F) : Option (Fm F) :=
  (Dep.search (K.search S true) K.fuel x .all [(c.message, []), (c.signature, [])]).bind fun res =>
    (mapO id res).map (intoExist K.E.L)

/-- The axiom of a candidate, if any (uf_cma.rs:331-421, euf_cma.rs:184-264). `tag` is `mac` or `sign`; `accept`
builds the premise from the signature, the message and the (cast) key. -/
def Pbl.instanceAx (K : Pbl F) (main key : Sub F) (tag : F) (accept : Fm F → Fm F → Fm F → Option (Fm F)) (c : Cand F) :
    Option (List (Fm F)) :=
  let u := K.uVar c
  let castKey := Fm.app K.cast [c.key]
  (K.keyOk key c).bind fun ok =>
    if ok then
      match K.freeVars c, K.mainFormula main (.app tag [.var u, castKey]) c,
          accept c.signature c.message castKey, K.E.eval (.var u), K.E.eval c.message with
      | some vs, some φ, some a, some eu, some em =>
        some [.mkForall vs (.app K.E.L.imp [a,
          if K.E.symbolic then .mkExists [u] (K.E.L.ands [K.E.L.meq eu em, φ])
          else Subst.apply (Subst.oneVar u.id c.message) φ])]
      | _, _, _, _, _ => none
    else some []

/-- The argument of the cast of a name. -/
def castArg (cast : F) : Fm F → Option (Fm F)
  | .app f [k] => if f = cast then some k else none
  | _ => none

/-! ### MACs -/

/-- Models `UfCma` (uf_cma.rs:63-70) with its two subterm predicates (uf_cma.rs:103-122). -/
structure Uf (F : Type) where
  mac : F
  verify : F
  hmac : Bool
  mainSound : Bool
  mainSym : Option Srt → Option F
  keySound : Bool
  keySym : Option Srt → Option F

def Uf.main (U : Uf F) (K : Pbl F) : Sub F := ⟨Aux.ufMain K.E.L K.eqTa U.mac U.verify U.hmac, U.mainSound, U.mainSym⟩
def Uf.key (U : Uf F) (K : Pbl F) : Sub F := ⟨Aux.ufKey U.mac U.verify K.cast, U.keySound, U.keySym⟩

/-- `mac(mess, cast(key))`. -/
def Uf.macKey (U : Uf F) (K : Pbl F) : Fm F → Option (Fm F × Fm F)
  | .app f [mess, key] => if f = U.mac then (castArg K.cast key).map (mess, ·) else none
  | _ => none

/-- `|t|`. -/
def Pbl.bitsArg (K : Pbl F) : Fm F → Option (Fm F)
  | .app f [t] => if f = K.toBits then some t else none
  | _ => none

/-- The candidates a term gives (uf_cma.rs:213-320). -/
def Uf.found (U : Uf F) (K : Pbl F) : Fm F → List (Cand F)
  | .app f args =>
    (match args with
      | [sign, mess, key] => if f = U.verify then ((castArg K.cast key).map (Cand.mk mess sign)).toList else []
      | _ => []) ++
    (match args with
      | [l, r] =>
        if U.hmac ∧ f = K.E.L.eq then
          ((U.macKey K l).map (fun p => Cand.mk p.1 r p.2)).toList ++
          ((U.macKey K r).map (fun p => Cand.mk p.1 l p.2)).toList ++
          (match K.bitsArg l, K.bitsArg r with
            | some l', some r' => ((U.macKey K l').map (fun p => Cand.mk p.1 r' p.2)).toList ++
                ((U.macKey K r').map (fun p => Cand.mk p.1 l' p.2)).toList
            | _, _ => [])
        else []
      | _ => []) ++
    (match args with
      | [l, r] =>
        if U.hmac ∧ f = K.eqTa then
          ((U.macKey K l).map (fun p => Cand.mk p.1 r p.2)).toList ++
          ((U.macKey K r).map (fun p => Cand.mk p.1 l p.2)).toList
        else []
      | _ => [])
  | _ => []

/-- `candidates` until `unique` (uf_cma.rs:209-323). -/
def Uf.candidates (U : Uf F) (K : Pbl F) : Option (List (Cand F)) :=
  (flatO (allTerms K.fuel) K.tops).map fun l => uniq ((l.flatMap (U.found K)).map K.prepare)

/-- Models `apply_eval_verify` (uf_cma.rs:435-448). -/
def Uf.accept (U : Uf F) (K : Pbl F) (s m k : Fm F) : Option (Fm F) :=
  if U.hmac then
    (K.E.eval s).bind fun a => (K.E.eval (.app U.mac [m, k])).map (K.E.L.meq a)
  else K.E.eval (.app U.verify [s, m, k])

/-- Models `UfCma::preprocess` (uf_cma.rs:189-433). -/
def Uf.preprocess (U : Uf F) (K : Pbl F) : Option (List (Fm F)) :=
  (U.candidates K).bind (flatO (K.instanceAx (U.main K) (U.key K) U.mac (U.accept K)))

/-- The axiom that a MAC verifies (uf_cma.rs:125-127). -/
def Uf.baseAx (U : Uf F) (K : Pbl F) : Option (Fm F) :=
  let m : Var := ⟨1, .message⟩
  let k : Var := ⟨0, .message⟩
  (K.E.eval (.app U.verify [.app U.mac [.var m, .var k], .var m, .var k])).map (.mkForall [m, k])

/-- The axiom on the splitting predicate (uf_cma.rs:155-167, euf_cma.rs:118-130). -/
def Pbl.splitAx (K : Pbl F) (key : Sub F) (split : F) : Option (Fm F) :=
  let k : Var := ⟨K.maxVar + 1, .name⟩
  (Dep.search (K.search key false) K.fuel (.var k) .noRecMacro (topLevel K.steps K.cells)).bind fun res =>
    (mapO id res).map fun rs => .mkForall [k] (.app K.E.L.imp [.app split [.var k], intoExist K.E.L rs])

/-- The axiom over all messages (uf_cma.rs:170-184, euf_cma.rs:132-149); `verifyKey` is the key given to
`verify`. -/
def Pbl.generalAx (K : Pbl F) (main key : Sub F) (tag verify split : F) (verifyKey : Fm F → Fm F) : Option (Fm F) :=
  let m : Var := ⟨1, .message⟩
  let sigma : Var := ⟨2, .message⟩
  let k : Var := ⟨3, .name⟩
  let u : Var := ⟨4, .message⟩
  let kf := Fm.app K.cast [.var k]
  match K.E.eval (.app verify [.var m, .var sigma, verifyKey kf]), K.E.eval (.var u), K.E.eval (.var m),
      subFormula K.E.L main.sound main.sym (.app tag [.var u, kf]) (.var m),
      subFormula K.E.L main.sound main.sym (.app tag [.var u, kf]) (.var sigma),
      subFormula K.E.L key.sound key.sym (.var k) (.var m),
      subFormula K.E.L key.sound key.sym (.var k) (.var sigma) with
  | some a, some eu, some em, some f1, some f2, some f3, some f4 =>
    some (.mkForall [m, sigma, k] (.app K.E.L.imp [a, .mkExists [u] (.app K.E.L.and [K.E.L.meq eu em,
      .app K.E.L.or [.app K.E.L.or [.app K.E.L.or [.app K.E.L.or [f1, f2], f3], f4], .app split [.var k]]])]))
  | _, _, _, _, _, _, _ => none

/-! ### Signatures -/

/-- Models `KeyAux` of euf-cma (euf_cma.rs:349-398). A symbol applied to fewer arguments than indexed would
panic; here the arguments are searched. -/
def _root_.CV.Dep.Aux.eufKey (sign pk cast : F) : Aux F where
  sort := .name
  nexts
    | .app f args =>
      if f = sign ∧ (args[1]?).any (isApp cast) then args.take 1
      else if f = pk ∧ (args[0]?).any (isApp cast) then []
      else args
    | .quant _ _ b => [b]
    | .var _ => []

/-- Models `EufCma` (euf_cma.rs:48-56) with its two subterm predicates (euf_cma.rs:71-93). -/
structure Euf (F : Type) where
  sign : F
  verify : F
  pk : F
  mainSound : Bool
  mainSym : Option Srt → Option F
  keySound : Bool
  keySym : Option Srt → Option F

def Euf.main (U : Euf F) : Sub F := ⟨Aux.default .message, U.mainSound, U.mainSym⟩
def Euf.key (U : Euf F) (K : Pbl F) : Sub F := ⟨Aux.eufKey U.sign U.pk K.cast, U.keySound, U.keySym⟩

/-- The arguments of an application of `f`. -/
def argsOf (f : F) : Fm F → Option (List (Fm F))
  | .app g args => if g = f then some args else none
  | _ => none

/-- The candidates a term gives (euf_cma.rs:165-182); `none` is an index out of bounds. -/
def Euf.found (U : Euf F) (K : Pbl F) (t : Fm F) : Option (List (Cand F)) :=
  match argsOf U.verify t with
  | none => some []
  | some args =>
    (args[2]?).bind fun (p : Fm F) =>
    match argsOf U.pk p with
    | none => some []
    | some as =>
      (as[0]?).bind fun (q : Fm F) =>
      match argsOf K.cast q with
      | none => some []
      | some bs =>
        (args[1]?).bind fun m => (args[0]?).bind fun s => (bs[0]?).map fun k => [⟨m, s, k⟩]

/-- `candidates` until `unique` (euf_cma.rs:160-184). -/
def Euf.candidates (U : Euf F) (K : Pbl F) : Option (List (Cand F)) :=
  (flatO (allTerms K.fuel) K.tops).bind fun l => (flatO (U.found K) l).map fun cs => uniq (cs.map K.prepare)

/-- The premise (euf_cma.rs:234-240). -/
def Euf.accept (U : Euf F) (K : Pbl F) (s m k : Fm F) : Option (Fm F) := K.E.eval (.app U.verify [s, m, .app U.pk [k]])

/-- Models `EufCma::preprocess` (euf_cma.rs:151-282). -/
def Euf.preprocess (U : Euf F) (K : Pbl F) : Option (List (Fm F)) :=
  (U.candidates K).bind (flatO (K.instanceAx U.main (U.key K) U.sign (U.accept K)))

end Cry
end CV
