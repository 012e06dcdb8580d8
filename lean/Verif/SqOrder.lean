/-
Model of the orderings extracted from the control flow of a Squirrel protocol:
squirrel/converters/convert_order.rs, and of the output locations of squirrel/mod.rs. Paths are relative
to /repo/crates/cryptovampire/src.
-/
import Verif.Squirrel

namespace CV
namespace Sq

mutual
/-- Equality of types (`derive(PartialEq)`, squirrel/json/sort.rs:6). -/
def JTy.eqb : JTy → JTy → Bool
  | .message, .message => true
  | .boolean, .boolean => true
  | .index, .index => true
  | .timestamp, .timestamp => true
  | .tbase p, .tbase q => decide (p = q)
  | .tuple a, .tuple b => JTy.eqbs a b
  | .unsupported, .unsupported => true
  | .name, .name => true
  | _, _ => false
/-- Equality of lists of types. -/
def JTy.eqbs : List JTy → List JTy → Bool
  | [], [] => true
  | a :: l, b :: m => JTy.eqb a b && JTy.eqbs l m
  | _, _ => false
end

mutual
theorem JTy.eqb_iff : ∀ a b : JTy, JTy.eqb a b = true ↔ a = b
  | .message, b => by cases b <;> simp [JTy.eqb]
  | .boolean, b => by cases b <;> simp [JTy.eqb]
  | .index, b => by cases b <;> simp [JTy.eqb]
  | .timestamp, b => by cases b <;> simp [JTy.eqb]
  | .tbase p, b => by cases b <;> simp [JTy.eqb]
  | .tuple l, b => by cases b <;> simp [JTy.eqb, JTy.eqbs_iff l]
  | .unsupported, b => by cases b <;> simp [JTy.eqb]
  | .name, b => by cases b <;> simp [JTy.eqb]
theorem JTy.eqbs_iff : ∀ a b : List JTy, JTy.eqbs a b = true ↔ a = b
  | [], b => by cases b <;> simp [JTy.eqbs]
  | x :: l, b => by cases b <;> simp [JTy.eqbs, JTy.eqb_iff x, JTy.eqbs_iff l]
end

instance : DecidableEq JTy := fun a b => decidable_of_iff _ (JTy.eqb_iff a b)
deriving instance DecidableEq for JVar

/-- Models `json::action::Item` (squirrel/json/action.rs:52-55). -/
structure Item (A : Type) where
  par : Nat × A
  sum : Nat × A
  deriving DecidableEq

/-- Models `json::action::AT` (squirrel/json/action.rs:61). -/
abbrev AT (A : Type) := List (Item A)

variable {A : Type} [DecidableEq A]

/-- Models `PartialOrd for MAT` (convert_order.rs:63-80). -/
def partialCmp (a b : AT A) : Option Ordering :=
  if a = b then some .eq
  else if (a.zip b).all (fun p => p.1 = p.2) then
    if a.length < b.length then some .lt else some .gt
  else none

/-- Models `depends` (convert_order.rs:82-89). -/
def depends (a b : AT A) : Option Bool :=
  match partialCmp a b with
  | some .lt => some true
  | some .eq => none
  | some .gt => some false
  | none => none

/-- Models `Action::shape` (squirrel/json/action.rs:126-145). -/
def shapeOf (a : AT (List JVar)) : AT Nat :=
  a.map fun it => ⟨(it.par.1, it.par.2.length), (it.sum.1, it.sum.2.length)⟩

/-- Models `mutex_commun_vars` (convert_order.rs:139-157). -/
def mutexVars : AT Nat → AT Nat → Option Nat
  | x :: a, y :: b =>
    if x = y then (mutexVars a b).map fun n => x.par.2 + x.sum.2 + n
    else if x.par = y.par ∧ x.sum.1 ≠ y.sum.1 then some x.par.2
    else none
  | _, _ => none

/-- The part of `json::Action` (squirrel/json/action.rs:62-79) read here. -/
structure Act where
  name : Path
  action : AT (List JVar)
  indices : List JVar
  deriving DecidableEq

/-- Models `OrderOperation` (parser/ast/ordering.rs:64-68). -/
inductive OrdKind
  | incompatible | lt | gt
  deriving DecidableEq

/-- Models `ast::Order` (parser/ast/ordering.rs) as built here: universally quantified, no guard. The two
terms are applications of a step to variables. -/
structure Ord where
  args : List Bnd
  t1 : Tm
  t2 : Tm
  kind : OrdKind

variable (C : Ctx)

/-- `Application::new_app(.., a.name.sanitized(&ctx), idx)` (convert_order.rs:129-130, 223-224). -/
def stepTm (p : Path) (vs : List JVar) : Tm :=
  .app (C.san .step p.toStr) (vs.map fun v => .cvar (C.san .variable v.name))

/-- The arguments and the `mdo!` block (convert_order.rs:115-135, 197-232), including `owned_get(0)`. -/
def mkOrd (vs : List JVar) (t1 t2 : Tm) (kind : OrdKind) : Res Ord :=
  (Res.collect (vs.map (bindVar C))).bind fun args =>
    (AoO.transposeIter args).bind fun args => (args.bind fun args => rpure ⟨args, t1, t2, kind⟩).bind fun r => r.ownedGet 0

/-- Models `mk_depends_lemma` (convert_order.rs:91-136). -/
def dependsLemma (a b : Act) : Res (Option Ord) :=
  match depends a.action b.action with
  | none => .ok none
  | some o =>
    let (a, b) := if o then (a, b) else (b, a)
    if b.indices.length < a.indices.length then .err
    else (mkOrd C b.indices (stepTm C a.name a.indices) (stepTm C b.name b.indices) .lt).map some

/-- `while names.contains(oname) { *oname = format!("{oname}_u") }` (convert_order.rs:190-192). The new name
is validated and unwrapped: it contains a forbidden character exactly when the old name is the dummy
variable (squirrel/json/mod.rs:7-9, 73-82). The loop ends because every iteration consumes a longer name. -/
def freshen (fuel : Nat) (names : List String) (s : String) : Res String :=
  match fuel with
  | 0 => .ok s
  | fuel + 1 =>
    if s ∈ names then
      if s = "$dummy" then .panic else freshen fuel names (s ++ "_u")
    else .ok s

/-- The renaming of the other variables of `b` (convert_order.rs:180-196). -/
def renameAll (names : List String) : List JVar → Res (List JVar)
  | [] => .ok []
  | v :: r => (freshen (names.length + 1) names v.name).bind fun s =>
      (renameAll (s :: names) r).bind fun l => .ok (⟨s, v.sort⟩ :: l)

/-- Models `mk_mutex_lemma` (convert_order.rs:159-234). The assertion compares whole actions; here it
compares what is modelled of them. -/
def mutexLemma (a b : Act) : Res (Option Ord) :=
  match mutexVars (shapeOf a.action) (shapeOf b.action) with
  | none => .ok none
  | some i =>
    if a = b ∧ a.indices.length = i then .panic
    else if a.indices.length < i ∨ b.indices.length < i then .panic
    else
      (renameAll (a.indices.map (·.name)) (b.indices.drop i)).bind fun other =>
        (mkOrd C (a.indices ++ other) (stepTm C a.name a.indices)
          (stepTm C b.name (a.indices.take i ++ other)) .incompatible).map some

/-- One pair of `mk_depends_mutex_lemmas` (convert_order.rs:41-44). -/
def pairLemma (a b : Act) : Res (Option Ord) :=
  (dependsLemma C a b).bind fun
    | some l => .ok (some l)
    | none => mutexLemma C a b

/-- `tuple_combinations` of two (convert_order.rs:40). -/
def pairs {α : Type} : List α → List (α × α)
  | [] => []
  | a :: l => l.map (fun b => (a, b)) ++ pairs l

/-- Models `mk_depends_mutex_lemmas` (convert_order.rs:28-48): all the results, in order. -/
def orderLemmas (steps : List Act) : List (Res Ord) :=
  (pairs (steps.filter fun a => a.name.toStr ≠ "init")).filterMap fun p =>
    match pairLemma C p.1 p.2 with
    | .ok none => none
    | .ok (some o) => some (.ok o)
    | .err => some .err
    | .panic => some .panic

/-! ### Output locations -/

/-- Models the loop of `run_from_json` (squirrel/mod.rs:27-46): the location used for each problem.
`join` is `PathBuf::join`; the location is updated in place. -/
def locations (join : String → Nat → String) (loc : Option String) (n : Nat) : List (Option String) :=
  go loc 0 n
where
  go (loc : Option String) (i : Nat) : Nat → List (Option String)
    | 0 => []
    | n + 1 =>
      let loc' := loc.map fun l => join l i
      loc' :: go loc' (i + 1) n

end Sq
end CV
