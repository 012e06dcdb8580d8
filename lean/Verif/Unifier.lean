import Verif.Subst
/-
Model of formula/manipulation/unifier.rs.
-/
namespace CV
variable {F : Type} [DecidableEq F]

/-- Result of a fuelled boolean procedure that also updates the two substitutions. `none` means the
fuel ran out. -/
abbrev URes (F : Type) := Option (Bool × MSubst F × MSubst F)

/-- `MultipleVarSubst::add` (variable_substitution/owned_var.rs:48-55, release mode: push). -/
def MSubst.add (s : MSubst F) (id : Nat) (t : Fm F) : MSubst F := s ++ [(id, t)]

/-- `Var(v) == f` for the derived equality of formulas (formula.rs:29 with variable.rs:44: by
number). -/
def Fm.isVarEq (v : Var) : Fm F → Bool
  | .var w => v.id == w.id
  | _ => false

/-- Models `itertools::zip_eq(..).all(..)` of unifier.rs:173-174 (both lists have the same length
there), short-circuiting on the first failure. -/
def mguAll (k : Fm F → Fm F → MSubst F → MSubst F → URes F) :
    List (Fm F) → List (Fm F) → MSubst F → MSubst F → URes F
  | a :: as, b :: bs, lp, rp =>
    match k a b lp rp with
    | some (true, lp', rp') => mguAll k as bs lp' rp'
    | r => r
  | _, _, lp, rp => some (true, lp, rp)

/-- Models the inner `aux` of `Unifier::mgu` (unifier.rs:121-191). Lines 152-161 are unreachable
(the left side is not a variable there) and line 164 recurses on the same right variable. -/
def mguAux : Nat → Fm F → Fm F → MSubst F → MSubst F → URes F
  | 0, _, _, _, _ => none
  | n + 1, l, r, lp, rp =>
    match l, r with
    | .var v, r =>
      if r.isVarEq v then some (true, lp, rp) else
      match lp.maybeGet v.id with
      | some (.var v2) =>
        match r with
        | .var v3 =>
          if v2.id = v3.id then some (true, lp, rp) else
          match rp.maybeGet v3.id with
          | some t => some (t.isVarEq v2, lp, rp)
          | none => some (true, lp, rp.add v3.id (.var v2))
        | _ => some (false, lp, rp)
      | some nl => mguAux n nl r lp rp
      | none => some (true, lp.add v.id r, rp)
    | l, .var v =>
      match rp.maybeGet v.id with
      | some (.var _) => some (false, lp, rp)
      | some nl => mguAux n nl (.var v) lp rp
      | none => some (true, lp, rp.add v.id l)
    | .app f as, .app g bs =>
      if f = g ∧ as.length = bs.length then mguAll (mguAux n) as bs lp rp
      else some (false, lp, rp)
    | _, _ => some (false, lp, rp)

/-- Models `Unifier` (unifier.rs:19-25). -/
structure Unif (F : Type) where
  left : MSubst F
  right : MSubst F

/-- Models `Unifier::mgu` (unifier.rs:121-191). Outer `none`: fuel exhausted. -/
def mgu (fuel : Nat) (l r : Fm F) : Option (Option (Unif F)) :=
  (mguAux fuel l r [] []).map (fun x => if x.1 then some ⟨x.2.1, x.2.2⟩ else none)

/-- Models `Unifier::as_equalities` (unifier.rs:39-67): refuse when a number is bound on both sides,
else one equality per entry, left entries first. Simplification: `get_sort` errors are not
modelled (they are errors too). -/
def Unif.asEqualities (u : Unif F) : Option (List (Nat × Fm F)) :=
  if (u.left.map Prod.fst).any (fun i => (u.right.map Prod.fst).contains i) then none
  else some (u.left ++ u.right)

/-- Models `Unifier::one_variable_unifier` (unifier.rs:70-79). -/
def Unif.oneVariable (v : Var) (t : Fm F) : Unif F := ⟨[(v.id, t)], []⟩

/-- Models `Unifier::is_unifying_to_variable` (unifier.rs:206-217). -/
def Unif.toVariable (u : Unif F) : Option (Nat × Fm F) :=
  if u.left.isEmpty ∧ u.right.length = 1 then u.right.head? else none

end CV
