import Verif.Crypto
/-
Model of the axioms that define the subterm predicates (subterm/mod.rs), of those generated for nonces
(problem/crypto_assumptions/nonce.rs) and of the definitions of the subterm predicates of the schemes
(`define_subterms` in uf_cma.rs and euf_cma.rs). Paths are relative to /repo/crates/cryptovampire/src.
`none` is a panic, or a search that does not end with the fuel given.
-/
namespace CV
namespace Cry
open Dep SmtM Ev
variable {F : Type} [DecidableEq F]

/-- What these axioms ask about symbols and sorts. `dflt`: `Function::is_default_subterm`
(formula/function/function.rs:398-403, inner/term_algebra/mod.rs:48-59). `ta`: `Function::is_term_algebra`.
`insort`: `Function::fast_insort`, `none` for the symbols without a fixed signature. `taSort`:
`Sort::is_term_algebra` (formula/sort/mod.rs:149-151). `evaluated`: `Sort::is_evaluated`. `ins`: the numbers of the
variables `in` of the steps that use it, which are still among the `used_variables` of a step
(parser/parser/parse_step_cell_asserts/step.rs:68-84, 182). -/
structure Info (F : Type) where
  dflt : F → Bool
  ta : F → Bool
  insort : F → Option (List Srt)
  taSort : Srt → Bool
  evaluated : Srt → Bool
  ins : List Nat

/-- `Subterm::f_a` (subterm/mod.rs:433-456). -/
def Pbl.sub (K : Pbl F) (S : Sub F) (x m : Fm F) : Option (Fm F) := subFormula K.E.L S.sound S.sym x m

/-- Models the body of `generate_functions_assertions` (subterm/mod.rs:193-227). -/
def Pbl.fnAx (K : Pbl F) (I : Info F) (S : Sub F) (f : F) : Option (Fm F) :=
  (I.insort f).bind fun ss =>
    let x : Var := ⟨0, S.A.sort⟩
    let vs := sortsToVariables 1 ss
    let applied : Fm F := .app f (vs.map .var)
    match mapO (fun v => K.sub S (.var x) (.var v)) vs, K.sub S (.var x) applied with
    | some ds, some p =>
      let ors := K.E.L.ors ds
      let ors := match K.E.L.sortOf applied with
        | none => .app K.E.L.or [ors, K.E.L.meq (.var x) applied]
        | some s => if s = S.A.sort then .app K.E.L.or [ors, K.E.L.meq (.var x) applied] else ors
      some (.mkForall (vs ++ [x]) (.app K.E.L.imp [p, ors]))
    | _, _ => none

/-- Models `generate_function_assertions_from_pbl` (subterm/mod.rs:230-247). -/
def Pbl.fnAxs (K : Pbl F) (I : Info F) (S : Sub F) (ignored : List F) : Option (List (Fm F)) :=
  mapO (K.fnAx I S) ((K.E.functions.filter I.dflt).filter (fun f => !ignored.contains f))

/-- Models `Protocol::max_var` (problem/protocol.rs:138-152): the variables that occur in the steps, as
`used_vars_iter` lists them (not those inside a quantifier symbol), and the fresh variables of the
assignments. -/
def Pbl.protMaxVar (K : Pbl F) (I : Info F) : Nat :=
  ((I.ins ++ (K.steps.flatMap (fun s => s.message.vars ++ s.condition.vars) ++
    K.cells.flatMap (fun c => c.assigns.flatMap GAssign.fresh)).map Var.id).max?).getD 0 + 1

/-- The variable searched for (subterm/mod.rs:256-257). -/
def Pbl.spX (K : Pbl F) (I : Info F) (S : Sub F) : Var := ⟨K.protMaxVar I + 1, S.A.sort⟩

/-- The arguments (subterm/mod.rs:258, 264-267). -/
def Pbl.spVars (K : Pbl F) (I : Info F) (ss : List Srt) : List Var := sortsToVariables (K.protMaxVar I + 2) ss

/-- Models the body of `generate_special_functions_assertions` (subterm/mod.rs:249-288), with
`preprocess_term_to_formula` (331-358). `fl`: the field `deeper_kind` of the subterm predicate. -/
def Pbl.specialAx (K : Pbl F) (I : Info F) (S : Sub F) (fl : Flags) (keepGuard : Bool) (f : F) : Option (Fm F) :=
  (I.insort f).bind fun ss =>
    let x := K.spX I S
    let vs := K.spVars I ss
    let applied : Fm F := .app f (vs.map .var)
    match (Dep.search (K.search S keepGuard) K.fuel (.var x) fl [(applied, [])]).bind (mapO id),
        K.sub S (.var x) applied with
    | some rs, some p => some (.mkForall (vs ++ [x]) (.app K.E.L.imp [p, intoExist K.E.L rs]))
    | _, _ => none

/-- Models `preprocess_special_assertion_from_pbl` (subterm/mod.rs:290-307). -/
def Pbl.specialAxs (K : Pbl F) (I : Info F) (S : Sub F) (fl : Flags) (ignored : List F) (keepGuard : Bool) : Option (List (Fm F)) :=
  mapO (K.specialAx I S fl keepGuard) (K.E.functions.filter (fun f => I.ta f && (!I.dflt f || ignored.contains f)))

/-- Models the body of `not_of_sort` (subterm/mod.rs:476-486). -/
def Pbl.notOfSort (K : Pbl F) (S : Sub F) (s : Srt) : Option (Fm F) :=
  let x : Var := ⟨0, S.A.sort⟩
  let m : Var := ⟨1, s⟩
  (K.sub S (.var x) (.var m)).map fun p => .mkForall [x, m] (.app K.E.not [p])

/-- Models `not_of_sort_auto` (subterm/mod.rs:490-511). -/
def Pbl.notOfSortAuto (K : Pbl F) (I : Info F) (S : Sub F) : Option (List (Fm F)) :=
  mapO (K.notOfSort S) (K.E.sorts.filter (fun s => s ≠ S.A.sort && !I.taSort s && (K.E.symbolic || !I.evaluated s)))

/-- The subterm predicate of nonces (nonce.rs:35-44): `NAME` is a datatype in both realms
(formula/sort/mod.rs:124-135). -/
def nonceSub (sym : Option Srt → Option F) : Sub F := ⟨Aux.default .name, true, sym⟩

/-- The sorts nonces do not occur in (nonce.rs:53-60). -/
def Pbl.nonceSorts (K : Pbl F) (I : Info F) : List Srt := K.E.sorts.filter (fun s => !(s = .name || I.taSort s))

/-- A name is a subterm of a name only if they are the same (nonce.rs:73-75). -/
def Pbl.nameAx (K : Pbl F) (S : Sub F) : Option (Fm F) :=
  let n1 : Var := ⟨0, .name⟩
  let n2 : Var := ⟨1, .name⟩
  (K.sub S (.var n1) (.var n2)).map fun p =>
    .mkForall [n1, n2] (.app K.E.L.imp [p, K.E.L.meq (.var n1) (.var n2)])

/-- Names that evaluate to the same are the same (nonce.rs:76-79). -/
def Pbl.evalAx (K : Pbl F) : Option (Fm F) :=
  let n1 : Var := ⟨0, .name⟩
  let n2 : Var := ⟨1, .name⟩
  match K.E.eval (.app K.cast [.var n1]), K.E.eval (.app K.cast [.var n2]) with
  | some a, some b => some (.mkForall [n1, n2] (.app K.E.L.imp [K.E.L.meq a b, K.E.L.meq (.var n1) (.var n2)]))
  | _, _ => none

/-- What evaluates to a name contains it (nonce.rs:85-91), asserted for ground messages. -/
def Pbl.groundAx (K : Pbl F) (S : Sub F) : Option (Fm F) :=
  let n : Var := ⟨0, .name⟩
  let m : Var := ⟨1, .message⟩
  match K.E.eval (.app K.cast [.var n]), K.E.eval (.var m), K.sub S (.var n) (.var m) with
  | some a, some b, some p => some (.mkForall [n, m] (.app K.E.L.imp [K.E.L.meq a b, p]))
  | _, _, _ => none

/-- Models `Nonce::generate` (nonce.rs:21-92), without the comment and the declarations: the axioms, and the one
asserted for ground messages. `vampire`: `kind.is_vampire()`. -/
def Pbl.nonce (K : Pbl F) (I : Info F) (vampire : Bool) (sym : Option Srt → Option F) : Option (List (Fm F) × Fm F) :=
  let S := nonceSub sym
  match (if vampire then some [] else
      match K.fnAxs I S [], mapO (K.notOfSort S) (K.nonceSorts I) with
      | some a, some b => some (a ++ b)
      | _, _ => none),
    K.specialAxs I S .all [] true, K.nameAx S, K.evalAx, K.groundAx S with
  | some a, some b, some c, some d, some g => some (a ++ b ++ [c, d], g)
  | _, _, _, _, _ => none

/-- One half of `define_subterms` (uf_cma.rs:466-487 and 490-513, euf_cma.rs:297-318 and 319-340). -/
def Pbl.defineSub (K : Pbl F) (I : Info F) (vampire : Bool) (S : Sub F) (fl : Flags) (ignored : List F) (keepGuard : Bool) :
    Option (List (Fm F)) :=
  match (if vampire then some [] else
      match K.fnAxs I S ignored, K.notOfSortAuto I S with
      | some a, some b => some (a ++ b)
      | _, _ => none),
    K.specialAxs I S fl ignored keepGuard with
  | some a, some b => some (a ++ b)
  | _, _ => none

/-- Models `define_subterms` (uf_cma.rs:452-514, euf_cma.rs:285-341), with the flags and the ignored functions the
predicates are made with (uf_cma.rs:103-122, euf_cma.rs:71-93). -/
def Pbl.defineSubterms (K : Pbl F) (I : Info F) (vampire : Bool) (key main : Sub F) (keyIgnored mainIgnored : List F) :
    Option (List (Fm F)) :=
  if K.E.symbolic then
    match K.defineSub I vampire key .noRecMacro keyIgnored false, K.defineSub I vampire main .all mainIgnored true with
    | some a, some b => some (a ++ b)
    | _, _ => none
  else some []

/-- `define_subterms` for a MAC. -/
def Uf.defineSubterms (U : Uf F) (K : Pbl F) (I : Info F) (vampire : Bool) : Option (List (Fm F)) :=
  K.defineSubterms I vampire (U.key K) (U.main K) [U.mac, U.verify] [U.mac, U.verify]

/-- `define_subterms` for a signature. -/
def Euf.defineSubterms (U : Euf F) (K : Pbl F) (I : Info F) (vampire : Bool) : Option (List (Fm F)) :=
  K.defineSubterms I vampire (U.key K) U.main [U.sign, U.pk] []

end Cry
end CV
