import Verif.Deps
import Verif.Unifier
/-
Model of the search for instances of a term in a protocol: the one-step unfolding of macros
(formula/utils/formula_expander.rs), the search itself and the formula made of its results
(subterm/mod.rs, subterm/traits.rs), and the ways of descending into a term
(subterm/traits.rs, problem/crypto_assumptions/{uf_cma/subterm,euf_cma,int_ctxt}.rs).
Paths are relative to /repo/crates/cryptovampire/src.
-/
namespace CV
namespace Dep
variable {F : Type}

/-- The builtin symbols the generated formulas are made of (formula/function/builtin.rs), what the code asks
about a symbol (`Function::as_inner`), the output sort of its signature (`none`: it is not fixed), and for the
symbols whose output sort is not fixed the one computed from the sorts of the arguments (`Function::sort`). -/
structure Lang (F : Type) where
  eq : F
  and : F
  or : F
  imp : F
  tru : F
  lt : F
  kind : F → Kind F
  out : F → Option Srt
  infer : F → List Srt → Option Srt

mutual
/-- Models `RichFormula::get_sort` (formula/formula/formula.rs:37-50): `none` is an error. -/
def Lang.sortOf (L : Lang F) : Fm F → Option Srt
  | .var v => some v.sort
  | .app f args =>
    match L.out f with
    | some s => some s
    | none => (Lang.sortsOf L args).bind (L.infer f)
  | .quant _ _ _ => some .bool
def Lang.sortsOf (L : Lang F) : List (Fm F) → Option (List Srt)
  | [] => some []
  | a :: as =>
    match Lang.sortOf L a, Lang.sortsOf L as with
    | some s, some ss => some (s :: ss)
    | _, _ => none
end

/-- `meq` (formula.rs:281-286). -/
def Lang.meq (L : Lang F) (a b : Fm F) : Fm F := .app L.eq [a, b]
/-- `ands` (formula.rs:288-290). -/
def Lang.ands (L : Lang F) (l : List (Fm F)) : Fm F := .app L.and l
/-- `ors` (formula.rs:292-294). -/
def Lang.ors (L : Lang F) (l : List (Fm F)) : Fm F := .app L.or l
/-- Models `Step::strict_before` (problem/step.rs:273-275). -/
def Lang.strictBefore (L : Lang F) (a b : Fm F) : Fm F := .app L.lt [a, b]
/-- Models `Step::before` (problem/step.rs:278-280). -/
def Lang.before (L : Lang F) (a b : Fm F) : Fm F := L.ors [L.strictBefore a b, L.meq a b]

/-- Models `UnfoldFlags` (formula_expander.rs:30-41), one field per bit. -/
structure Flags where
  taq : Bool
  input : Bool
  cells : Bool
  stepMac : Bool
  exec : Bool
  deriving DecidableEq, Repr

/-- `UnfoldFlags::all()`, also the default (formula_expander.rs:412-416). -/
def Flags.all : Flags := ⟨true, true, true, true, true⟩

/-- Models `NO_REC_MACRO` (formula_expander.rs:44-48). -/
def Flags.noRecMacro : Flags := ⟨true, false, false, false, true⟩

/-- Models `UnfoldingState` (formula_expander.rs:52-64). -/
structure UState (F : Type) where
  flags : Flags
  bound : List Var
  guard : Option (Fm F)

/-- Models `UnfoldingState::add_variables` (formula_expander.rs:83-101); `none` is the failed `assert!`.
`all_unique` goes through a hash set, whose hash is on number and sort. -/
def UState.addVariables (st : UState F) (vs : List Var) : Option (UState F) :=
  if (st.bound ++ vs).Nodup then some { st with bound := st.bound ++ vs } else none

/-- Models `UnfoldingState::add_condition` (formula_expander.rs:116-128). -/
def UState.addCondition (L : Lang F) (st : UState F) (vs : List Var) (c : Fm F) : Option (UState F) :=
  (st.addVariables vs).map (fun n => { n with guard := some (match n.guard with
    | some g => L.ands [g, c]
    | none => c) })

/-- The substitution made of `make_collision_avoiding_subst` (`FrozenMultipleVarSubst::<Variable>::get`,
variable_substitution/ref_substitution.rs:92-100, 141-149). -/
def renSubst (r : List (Nat × Var)) : Subst F := fun v => .var (getVar r v)

/-- Models `Unfolder::unfold_step_macro` (formula_expander.rs:210-241). `none`: a panic (`destvec!`, or the
`assert!` of `add_variables`). The contents are not renamed. -/
def unfoldStepMacro (L : Lang F) (steps : List (GStep F)) (msg : Bool) (args : List (Fm F)) (st : UState F) :
    Option (List (Fm F × UState F)) :=
  match args with
  | [arg] => steps.mapM (fun s =>
      let nvars := s.vars.map (getVar (collisionAvoiding s.vars st.bound))
      (st.addCondition L nvars (L.meq arg (.app s.fn (nvars.map .var)))).map
        (fun st' => (if msg then s.message else s.condition, st')))
  | _ => none

/-- The part of `unfold_cell_or_input` on assignments (formula_expander.rs:327-361). -/
def unfoldAssign (L : Lang F) (isInput : Bool) (origin : Fm F) (st : UState F) (a : GAssign F) :
    Option (Fm F × UState F) :=
  let vs := a.step.vars ++ a.fresh
  let r := collisionAvoiding vs st.bound
  let stepF : Fm F := .app a.step.fn (a.step.vars.map (renSubst r))
  (st.addCondition L (vs.map (getVar r))
    (if isInput then L.strictBefore stepF origin else L.before stepF origin)).map
    (fun st' => (Subst.apply (renSubst r) a.content, st'))

/-- The part of `unfold_cell_or_input` on steps (formula_expander.rs:362-386), for one step. -/
def unfoldStep (L : Lang F) (origin : Fm F) (st : UState F) (s : GStep F) : Option (List (Fm F × UState F)) :=
  let r := collisionAvoiding s.vars st.bound
  let stepF : Fm F := .app s.fn (s.vars.map (renSubst r))
  (st.addCondition L (s.vars.map (getVar r)) (L.strictBefore stepF origin)).map
    (fun st' => [(Subst.apply (renSubst r) s.message, st'), (Subst.apply (renSubst r) s.condition, st')])

/-- Models `MacroRef::is_input` (problem/cell_dependancies/macro_ref.rs). -/
def MacroRef.isInput : MacroRef F → Bool
  | .input => true
  | _ => false

/-- Models `unfold_cell_or_input` (formula_expander.rs:308-389). `none`: a panic. -/
def unfoldCellOrInput (L : Lang F) (steps : List (GStep F)) (G : PreGraph F) (r : MacroRef F) (st : UState F)
    (args : List (Fm F)) : Option (List (Fm F × UState F)) :=
  match G.ancestors r, args.getLast? with
  | some anc, some origin =>
    match (anc.cells.flatMap GCell.assigns).mapM (unfoldAssign L r.isInput origin st),
        (if anc.input then steps.mapM (unfoldStep L origin st) else some []) with
    | some cs, some is => some (cs ++ is.flatten)
    | _, _ => none
  | _, _ => none

/-- Models `Unfolder::unfold_quantifier` (formula_expander.rs:268-300). `none`: a panic. -/
def unfoldQuantifier (bound free : List Var) (content : List (Fm F)) (args : List (Fm F)) (st : UState F) :
    Option (List (Fm F × UState F)) :=
  match FrozenSubst.newFrom (free.map Var.id) args with
  | none => none
  | some fs =>
    let r := collisionAvoiding bound (free ++ st.bound)
    (st.addVariables (bound.map (getVar r))).map (fun st' =>
      content.map (fun f => (Subst.apply (MSubst.get (fs.vars.zip fs.formulas)) (Subst.apply (renSubst r) f), st')))

/-- Models `Unfolder::unfold` (formula_expander.rs:155-208). `none`: a panic. -/
def unfold (L : Lang F) (steps : List (GStep F)) (G : PreGraph F) (t : Fm F) (st : UState F) :
    Option (List (Fm F × UState F)) :=
  match t with
  | .var _ => some []
  | .quant _ _ b => some [(b, st)]
  | .app f args =>
    match L.kind f with
    | .taq bound free content => if st.flags.taq then unfoldQuantifier bound free content args st else some []
    | .cell c =>
      if st.flags.cells then
        unfoldCellOrInput L steps G (.cell c) { st with flags := { st.flags with cells := false } } args
      else some []
    | .mac .msg => if st.flags.stepMac then unfoldStepMacro L steps true args st else some []
    | .mac .cond => if st.flags.stepMac then unfoldStepMacro L steps false args st else some []
    | .mac .input =>
      if st.flags.input then
        unfoldCellOrInput L steps G .input { st with flags := { st.flags with input := false } } args
      else some []
    | .mac .exec =>
      if st.flags.exec then
        unfoldCellOrInput L steps G .exec { st with flags := { st.flags with exec := false } } args
      else some []
    | .step _ | .plain => some []

/-- Models the implementations of `SubtermAux` (subterm/traits.rs:28-92): the sort searched for and the
terms to look into next. -/
structure Aux (F : Type) where
  sort : Srt
  nexts : Fm F → List (Fm F)

/-- Models the field `unified` of `var_eval_and_next` (traits.rs:118-123; uf_cma/subterm.rs:78-83, 132-137):
the same test in every implementation. -/
def Aux.unified (L : Lang F) (A : Aux F) (t : Fm F) : Bool :=
  match L.sortOf t with
  | none => true
  | some s => s == A.sort

/-- Models `DefaultAuxSubterm` (traits.rs:94-130). -/
def Aux.default (s : Srt) : Aux F where
  sort := s
  nexts := Fm.args

/-- Is the term an application of `f`? (`if let RichFormula::Fun(nf, _) = .. && nf == f`) -/
def isApp [DecidableEq F] (f : F) : Fm F → Bool
  | .app g _ => decide (g = f)
  | _ => false

/-- Models `KeyAux` of uf-cma (uf_cma/subterm.rs:41-85). A symbol applied to fewer arguments than indexed
(`args[1]`, `args[2]`) would panic; here the arguments are searched. -/
def Aux.ufKey [DecidableEq F] (mac verify cast : F) : Aux F where
  sort := .name
  nexts
    | .app f args =>
      if f = mac ∧ (args[1]?).any (isApp cast) then args.take 1
      else if f = verify ∧ (args[2]?).any (isApp cast) then args.take 2
      else args
    | .quant _ _ b => [b]
    | .var _ => []

/-- The arguments of the application of `mac`, if the term is one. -/
def macArgs [DecidableEq F] (mac : F) : Fm F → List (Fm F)
  | .app g as => if g = mac then as else []
  | _ => []

/-- Models `UfCmaMainSubtAux` (uf_cma/subterm.rs:115-188). `eqTa` is the equality of the term algebra. -/
def Aux.ufMain [DecidableEq F] (L : Lang F) (eqTa mac verify : F) (hmac : Bool) : Aux F where
  sort := .message
  nexts
    | .app f args =>
      match decide (f = verify), args with
      | true, [sig, m, k] =>
        if isApp mac sig then [m, k] ++ macArgs mac sig else args
      | _, _ =>
        if hmac ∧ (f = L.eq ∨ f = eqTa) then
          match args with
          | [l, r] =>
            let ns := macArgs mac l ++ macArgs mac r
            if ns.isEmpty then args else ns
          | _ => args
        else args
    | .quant _ _ b => [b]
    | .var _ => []

/-- Models `Subterm::f_a` (subterm/mod.rs:433-456): `sub` is the symbol of the subterm predicate for the sort
of `m` (one symbol per sort, or one for all with vampire's builtin), `none` a panic (`unsupported sort`);
`sound` is `is_sound_in_smt` (538-540). -/
def subFormula (L : Lang F) (sound : Bool) (sub : Option Srt → Option F) (x m : Fm F) : Option (Fm F) :=
  if sound then (sub (L.sortOf m)).map (fun f => .app f [x, m]) else some (.app L.tru [])

/-- What a search is parametrised by. -/
structure SearchCfg (F : Type) where
  L : Lang F
  steps : List (GStep F)
  G : PreGraph F
  A : Aux F
  sound : Bool
  sub : Option Srt → Option F
  keepGuard : Bool
  /-- fuel given to each call of `mgu` -/
  mfuel : Nat

/-- The equalities of a unifier as formulas (manipulation/unifier.rs:57-66): `none` when the sort of one of
the terms is not known. -/
def eqFormulas (L : Lang F) (l : List (Nat × Fm F)) : Option (List (Fm F)) :=
  l.mapM (fun p => (L.sortOf p.2).map (fun s => L.meq (.var ⟨p.1, s⟩) p.2))

/-- The unifier of `is_subterm_and_next` (subterm/traits.rs:31-64). Outer `none`: `mgu` ran out of fuel. -/
def unifierOf [DecidableEq F] (C : SearchCfg F) (x t : Fm F) : Option (Option (Unif F)) :=
  if C.A.unified C.L t then
    match x with
    | .var v => some (some (Unif.oneVariable v t))
    | _ => mgu C.mfuel x t
  else some none

/-- The conjuncts for a unifier (subterm/mod.rs:816-825); `none` is a panic. -/
def unifGuard [DecidableEq F] (C : SearchCfg F) (x t : Fm F) (u : Unif F) : Option (List (Fm F)) :=
  match u.toVariable with
  | some (_, f) =>
    if f = x then (subFormula C.L C.sound C.sub x t).map (fun a => [a])
    else (u.asEqualities).bind (eqFormulas C.L)
  | none => (u.asEqualities).bind (eqFormulas C.L)

/-- The result pushed for a visited term, if any (subterm/mod.rs:814-836). -/
def visitResult [DecidableEq F] (C : SearchCfg F) (x t : Fm F) (st : UState F) :
    List (Option (List Var × Fm F)) :=
  match unifierOf C x t with
  | none => [none]
  | some none => []
  | some (some u) =>
    match unifGuard C x t u with
    | none => [none]
    | some g => [some (st.bound, C.L.ands (g ++ (if C.keepGuard then st.guard.toList else [])))]

/-- Models `PreprocessTermIterator::next` (subterm/mod.rs:792-839). A result `none` is a panic, or the
exhausted fuel of `mgu`. -/
def searchVisit [DecidableEq F] (C : SearchCfg F) (x t : Fm F) (st : UState F) :
    List (Content (Option (List Var × Fm F)) F (UState F)) :=
  (match unfold C.L C.steps C.G t st with
    | none => [.result none]
    | some l => l.map (fun p => .next p.1 p.2)) ++
  (visitResult C x t st).map .result ++
  (C.A.nexts t).map (fun a => .next a st)

def searchIter [DecidableEq F] (C : SearchCfg F) (x : Fm F) :
    FIter (Option (List Var × Fm F)) F (UState F) Unit where
  visit := fun _ t st => ((), searchVisit C x t st)

/-- Models `Subterm::preprocess_terms` (subterm/mod.rs:393-431), run to the end: the roots are put on the
pile in order, so the last is visited first. Outer `none`: the search does not end with this fuel. -/
def search [DecidableEq F] (C : SearchCfg F) (fuel : Nat) (x : Fm F) (fl : Flags) (roots : List (Fm F × List Var)) :
    Option (List (Option (List Var × Fm F))) :=
  runPile (searchIter C x) fuel () (roots.map (fun p => .next p.1 ⟨fl, p.2, none⟩)).reverse

/-- Models `Protocol::list_top_level_terms_short_lifetime_and_bvars` (problem/protocol.rs:107-135). -/
def topLevel (steps : List (GStep F)) (cells : List (GCell F)) : List (Fm F × List Var) :=
  steps.flatMap (fun s => [(s.condition, s.vars), (s.message, s.vars)]) ++
  cells.flatMap (fun c => c.assigns.map (fun a => (a.content, a.step.vars ++ a.fresh)))

/-! ### The disjunction of the results (`into_exist_formula`, subterm/mod.rs:689-771) -/

/-- Models `Iterator::unique` (itertools): the first occurrences, in order. -/
def uniq {α : Type} [DecidableEq α] : List α → List α
  | [] => []
  | a :: l => a :: (uniq l).filter (fun b => decide (b ≠ a))

/-- The keys of the map `vars` (subterm/mod.rs:693-703). Simplification: the order of the `BTreeMap` (by number
then sort) is not modelled; it is only seen in the order of a quantifier block. -/
def exKeys (content : List (List Var × Fm F)) : List Var := uniq (content.flatMap Prod.fst)

/-- The set of positions kept for a variable (subterm/mod.rs:695-712): the formulas listing it, and those
listing no variable with its number. -/
def exPositions (content : List (List Var × Fm F)) (v : Var) : List Nat :=
  (content.zipIdx.filter (fun p => p.1.1.contains v || !(p.1.1.map Var.id).contains v.id)).map Prod.snd

/-- Comparison of the keys of `max_set_by_key` (subterm/mod.rs:728): the length, then the ordered sets. -/
def posLe : List Nat → List Nat → Bool
  | [], _ => true
  | _ :: _, [] => false
  | a :: as, b :: bs => a < b || (a == b && posLe as bs)

def keyLe (a b : List Nat) : Bool := a.length < b.length || (a.length == b.length && posLe a b)

/-- Models the choice of `max` (subterm/mod.rs:725-736): the largest set of positions and the variables that
have it. -/
def exMax (content : List (List Var × Fm F)) : Option (List Nat × List Var) :=
  match exKeys content with
  | [] => none
  | v :: vs =>
    let m := vs.foldl (fun m w => if keyLe m (exPositions content w) then exPositions content w else m)
      (exPositions content v)
    some (m, (v :: vs).filter (fun w => exPositions content w == m))

/-- Models `into_exist_formula` (subterm/mod.rs:689-771). The `assert!` of line 741 cannot fail. -/
def intoExist [DecidableEq F] (L : Lang F) (results : List (List Var × Fm F)) : Fm F :=
  let content := uniq results
  match exMax content with
  | none => L.ors (content.map Prod.snd)
  | some (pos, vmax) =>
    let ors1 := pos.filterMap (fun i => (content[i]?).map (fun p => Fm.mkExists (p.1.filter (fun v => !vmax.contains v)) p.2))
    L.ors (Fm.mkExists vmax (L.ors ors1) ::
      (content.zipIdx.filter (fun p => !pos.contains p.2)).map (fun p => Fm.mkExists p.1.1 p.1.2))

end Dep
end CV
