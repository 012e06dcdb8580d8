import Verif.Formula
/-
Model of formula/manipulation/substitution/** and of the substitution entry points of
formula/formula/formula.rs and formula/variable.rs.
-/
namespace CV
variable {F : Type}

/-- Models the trait `Substitution` through its method `get`
(formula/manipulation/substitution/substitution.rs:7-10). -/
abbrev Subst (F : Type) := Var → Fm F

namespace Subst

mutual
/-- Models `Substitution::apply` (substitution.rs:13-23): the quantifier (its variable list) is
kept as is and the substitution goes below it unchanged. -/
def apply (s : Subst F) : Fm F → Fm F
  | .var v => s v
  | .app f args => .app f (applys s args)
  | .quant q vs b => .quant q vs (apply s b)
def applys (s : Subst F) : List (Fm F) → List (Fm F)
  | [] => []
  | a :: as => apply s a :: applys s as
end

theorem applys_eq (s : Subst F) (l : List (Fm F)) : applys s l = l.map (apply s) := by
  induction l with
  | nil => rfl
  | cons a l ih => simp [applys, ih]

/-- Models `Chain::get` (substitution.rs:59-63) built by `Substitution::chain` (25-36). -/
def chain (s t : Subst F) : Subst F := fun v => apply t (s v)

/-- Models `Translate::get` (substitution.rs:75-83). -/
def translate (i : Nat) : Subst F := fun v => .var { v with id := v.id + i }

/-- Models `OneVarSubst::get` (variable_substitution/one_var.rs:63-83; logging erased). -/
def oneVar (id : Nat) (f : Fm F) : Subst F := fun v => if v.id = id then f else .var v

end Subst

/-- Models `MultipleVarSubst` (variable_substitution/owned_var.rs:21-23) and
`FrozenMultipleVarSubst` (ref_substitution.rs:16-18): a list of `OneVarSubst { id, f }`. -/
abbrev MSubst (F : Type) := List (Nat × Fm F)

namespace MSubst

/-- Models `MultipleVarSubst::maybe_get` (owned_var.rs:28-33). -/
def maybeGet (s : MSubst F) (id : Nat) : Option (Fm F) := (s.find? (fun p => p.1 == id)).map Prod.snd

/-- Models `MultipleVarSubst::get` (owned_var.rs:95-99). -/
def get (s : MSubst F) : Subst F := fun v => (maybeGet s v.id).getD (.var v)

/-- Models `FrozenMultipleVarSubst::get` on formulas (ref_substitution.rs:141-149): find the
first matching entry, then ask that `OneVarSubst`. -/
def getFrozen (s : MSubst F) : Subst F := fun v =>
  ((s.find? (fun p => p.1 == v.id)).map (fun p => Subst.oneVar p.1 p.2 v)).getD (.var v)

end MSubst

/-- Models `FrozenSubst { vars, formulas }` (ref_substitution.rs:44-47). -/
structure FrozenSubst (F : Type) where
  vars : List Nat
  formulas : List (Fm F)

namespace FrozenSubst

/-- Models `FrozenSubst::new_from` (ref_substitution.rs:54-65): `none` is the panic of
`assert_valid` (75-77). -/
def newFrom (vars : List Nat) (formulas : List (Fm F)) : Option (FrozenSubst F) :=
  if vars.length = formulas.length then some ⟨vars, formulas⟩ else none

/-- `vars.iter().zip_eq(formulas.iter()).find(..)`: `zip_eq` panics (outer `none`) when it reaches
the end of one list but not of the other; `find` stops at the first match. -/
def zipEqFind (id : Nat) : List Nat → List (Fm F) → Option (Option (Fm F))
  | [], [] => some none
  | v :: vs, f :: fs => if v == id then some (some f) else zipEqFind id vs fs
  | _, _ => none

/-- Models `FrozenSubst::get` (ref_substitution.rs:163-172). -/
def get (s : FrozenSubst F) (v : Var) : Option (Fm F) :=
  (zipEqFind v.id s.vars s.formulas).map (fun r => r.getD (.var v))

/-- Models `From<FrozenMultipleVarSubst> for FrozenSubst` (ref_substitution.rs:119-128). -/
def ofMulti (s : MSubst F) : Option (FrozenSubst F) := newFrom (s.map Prod.fst) (s.map Prod.snd)

/-- `zip_eq` collected: panics (`none`) on different lengths. -/
def zipEq : List Nat → List (Fm F) → Option (MSubst F)
  | [], [] => some []
  | v :: vs, f :: fs => (zipEq vs fs).map ((v, f) :: ·)
  | _, _ => none

/-- Models `From<FrozenSubst> for FrozenMultipleVarSubst` (ref_substitution.rs:130-138). -/
def toMulti (s : FrozenSubst F) : Option (MSubst F) := zipEq s.vars s.formulas

end FrozenSubst

namespace Fm

mutual
/-- Models `RichFormula::map` specialised as in `RichFormula::apply` (formula.rs:60-97): rebuild
bottom-up, the function being the identity except on variables. -/
def applyFn (g : Var → Fm F) : Fm F → Fm F
  | var v => g v
  | app f args => app f (applyFns g args)
  | quant q vs b => quant q vs (applyFn g b)
def applyFns (g : Var → Fm F) : List (Fm F) → List (Fm F)
  | [] => []
  | a :: as => applyFn g a :: applyFns g as
end

/-- Models `RichFormula::apply_some` (formula.rs:99-104). -/
def applySome (g : Var → Option (Fm F)) (f : Fm F) : Fm F := applyFn (fun v => (g v).getD (var v)) f

/-- Models `RichFormula::apply_substitution` (formula.rs:106-124), release mode: the first
position of the id in `vars` selects the formula at that index of `fs`; indexing past the end
of `fs` is a panic, so the result is `none` when some variable of the formula selects an
index outside `fs`. -/
def applySubstitution (vs : List Nat) (fs : List (Fm F)) (f : Fm F) : Option (Fm F) :=
  if f.vars.all (fun v => match vs.findIdx? (· == v.id) with
    | none => true
    | some i => decide (i < fs.length)) then
    some (f.applySome (fun v => (vs.findIdx? (· == v.id)).bind (fun i => fs[i]?)))
  else none

/-- Models `RichFormula::translate_vars` (formula.rs:130-133). -/
def translateVars (i : Nat) (f : Fm F) : Fm F := Subst.apply (Subst.translate i) f

end Fm

/-- Models `IntoVariableIter::max_var_or_max` (variable.rs:149-154). -/
def maxVarOrMax (ids : List Nat) (m : Nat) : Nat := max m ((ids.max?).getD m) + 1

/-- Models `IntoVariableIter::max_var` (variable.rs:141-146). -/
def maxVar (ids : List Nat) : Nat := maxVarOrMax ids 0

/-- Models `sorts_to_variables` (variable.rs:84-94). -/
def sortsToVariables (start : Nat) (s : List Srt) : List Var :=
  s.zipIdx.map (fun p => { id := p.2 + start, sort := p.1 })

/-- Models `make_collision_avoiding_subst` (formula/utils/formula_expander.rs:391-406): variables
clashing with `base` are mapped to themselves plus one more than the largest id in sight. -/
def collisionAvoiding (vs base : List Var) : List (Nat × Var) :=
  let m := (((base ++ vs).map Var.id).max?).getD 0 + 1
  (vs.filter (fun v => (base.map Var.id).contains v.id)).map
    (fun v => (v.id, { v with id := v.id + m }))

/-- Models `FrozenMultipleVarSubst::<Variable>::get_var` (ref_substitution.rs:92-100). -/
def getVar (s : List (Nat × Var)) (v : Var) : Var :=
  ((s.find? (fun p => p.1 == v.id)).map Prod.snd).getD v

end CV
