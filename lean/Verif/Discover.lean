import Verif.Parser
/-
Model of the search for instances in the output of a solver: formula/base_formula/{mod,tmp_formula}.rs,
runner/tptp.rs (from literals on) and runner/searcher.rs. Reading TPTP text (the crate `tptp`) and the regular expression
that cuts clauses out of the output are parameters. Paths are relative to /repo/crates/cryptovampire/src.
-/
namespace CV
namespace Disc
open Prs

/-- Models `TmpFormula` (base_formula/mod.rs:12-23, tmp_formula.rs:25). -/
inductive TF
  | binder (head : String) (vars : List String) (args : List TF)
  | app (head : String) (args : List TF)
  | var (x : String)

namespace TF
mutual
def decEq : (a b : TF) → Decidable (a = b)
  | var v, var w => if h : v = w then .isTrue (by rw [h]) else .isFalse (fun e => h (by injection e))
  | app f as, app g bs =>
    if h : f = g then
      match decEqs as bs with
      | .isTrue h' => .isTrue (by rw [h, h'])
      | .isFalse h' => .isFalse (fun e => h' (by injection e))
    else .isFalse (fun e => h (by injection e))
  | binder q vs b, binder q' vs' b' =>
    if h : q = q' ∧ vs = vs' then
      match decEqs b b' with
      | .isTrue h' => .isTrue (by rw [h.1, h.2, h'])
      | .isFalse h' => .isFalse (fun e => h' (by injection e))
    else .isFalse (fun e => h (by injection e with a b _; exact ⟨a, b⟩))
  | var _, app _ _ => .isFalse (fun e => by cases e)
  | var _, binder _ _ _ => .isFalse (fun e => by cases e)
  | app _ _, var _ => .isFalse (fun e => by cases e)
  | app _ _, binder _ _ _ => .isFalse (fun e => by cases e)
  | binder _ _ _, var _ => .isFalse (fun e => by cases e)
  | binder _ _ _, app _ _ => .isFalse (fun e => by cases e)
def decEqs : (a b : List TF) → Decidable (a = b)
  | [], [] => .isTrue rfl
  | a :: as, b :: bs =>
    match decEq a b with
    | .isTrue h =>
      match decEqs as bs with
      | .isTrue h' => .isTrue (by rw [h, h'])
      | .isFalse h' => .isFalse (fun e => h' (by injection e))
    | .isFalse h => .isFalse (fun e => h (by injection e))
  | [], _ :: _ => .isFalse (fun e => by cases e)
  | _ :: _, [] => .isFalse (fun e => by cases e)
end

instance : DecidableEq TF := decEq

@[elab_as_elim]
theorem ind {P : TF → Prop} (hb : ∀ h vs args, (∀ a ∈ args, P a) → P (binder h vs args))
    (ha : ∀ h args, (∀ a ∈ args, P a) → P (app h args)) (hv : ∀ x, P (var x)) : ∀ t, P t
  | binder h vs args => hb h vs args (fun a _ => ind hb ha hv a)
  | app h args => ha h args (fun a _ => ind hb ha hv a)
  | var x => hv x
end TF

/-- Models `TmpOrStr` (tmp_formula.rs:172-175). -/
inductive Key
  | tmp (t : TF)
  | str (s : String)
  deriving DecidableEq

/-- Models `VarHashMap` (tmp_formula.rs:170), a list without repeated keys. -/
abbrev VM := List (Key × Var)

/-- Models `HashMap::insert`. -/
def VM.insert (vm : VM) (k : Key) (v : Var) : VM :=
  if (vm.lookup k).isSome then vm.map (fun p => if p.1 = k then (k, v) else p) else vm ++ [(k, v)]

/-- The signatures (formula/function/function.rs:337-352): those of the parser, and that of a subterm predicate in
vampire mode (inner/subterm.rs:173-199). -/
inductive Sg
  | base (s : FSig)
  | sub (own : Srt)

/-- `signature.args()` as far as zipped with `n` arguments, `signature.out()`, and the store with the fresh cells. -/
def Sg.inst (st : Store) (n : Nat) : Sg → List Px × Px × Store
  | .base s => s.inst st n
  | .sub own => ([.stat own, .var st.length], .stat .bool, st ++ [none])

/-- A function of the map (`get_function_hash_map`, container/container.rs:155-163). `tmp`: `Function::is_tmp`. -/
structure Fun (G : Type) where
  sym : G
  sig : Sg
  tmp : Bool

variable {G : Type}

/-- Models `TmpOrStr::to_rich_formula_variable` (tmp_formula.rs:179-204). `dbg`: debug assertions are on. -/
def toVar (dbg : Bool) (k : Key) (es : Px) (vm : VM) (st : Store) : Out (Var × VM × Store) :=
  match (vm.lookup k).bind (fun v => (es.expects st .ev v.sort).map (v, ·)) with
  | some (v, st') => .ok (v, vm, st')
  | none =>
    match es.get st with
    | some s =>
      if dbg && vm.any (fun p => p.2.id == vm.length) then .panic
      else .ok (⟨vm.length, s⟩, vm.insert k ⟨vm.length, s⟩, st)
    | none => .err

/-- Gathering the variables of a binder (tmp_formula.rs:118-127): each is expected at a fresh cell. -/
def toVars (dbg : Bool) : List String → VM → Store → Out (List Var × VM × Store)
  | [], vm, st => .ok ([], vm, st)
  | x :: xs, vm, st =>
    (toVar dbg (.str x) (.var st.length) vm (st ++ [none])).bind fun r =>
      (toVars dbg xs r.2.1 r.2.2).bind fun rs => .ok (r.1 :: rs.1, rs.2)

/-- The quantifiers (tmp_formula.rs:130-135). -/
def quantOf (h : String) : Option QKind :=
  if h = "exists" then some .ex else if h = "forall" then some .all else none

mutual
/-- Models `TmpFormula::to_rich_formula` (tmp_formula.rs:46-166). `K` is the map of functions. -/
def conv (K : String → Option (Fun G)) (dbg : Bool) : TF → Px → VM → Store → Out (Fm G × VM × Store)
  | .app h args, es, vm, st =>
    match K h with
    | some f =>
      if f.tmp then .err
      else
        let i := f.sig.inst st args.length
        match i.2.1.unify i.2.2 .ev es with
        | none => .err
        | some (_, st) => (convs K dbg args i.1 vm st).bind fun r => .ok (.app f.sym r.1, r.2)
    | none => (toVar dbg (.tmp (.app h args)) es vm st).bind fun r => .ok (.var r.1, r.2)
  | .binder h vs args, es, vm, st =>
    match es.unify st .ev (.stat .bool) with
    | none => .err
    | some (_, st) =>
      (toVars dbg vs vm st).bind fun r =>
        match quantOf h, args with
        | some q, [a] => (conv K dbg a (.stat .bool) r.2.1 r.2.2).bind fun b => .ok (.quant q r.1 b.1, r.2.1, b.2.2)
        | _, _ => .err
  | .var x, es, vm, st => (toVar dbg (.tmp (.var x)) es vm st).bind fun r => .ok (.var r.1, r.2)
/-- The loop over the arguments (tmp_formula.rs:84-95): too many is an error, too few is not. -/
def convs (K : String → Option (Fun G)) (dbg : Bool) : List TF → List Px → VM → Store → Out (List (Fm G) × VM × Store)
  | [], _, vm, st => .ok ([], vm, st)
  | _ :: _, [], _, _ => .err
  | a :: as, p :: ps, vm, st =>
    (conv K dbg a p vm st).bind fun r => (convs K dbg as ps r.2.1 r.2.2).bind fun rs => .ok (r.1 :: rs.1, rs.2)
end

/-- Models `Literal` of the crate `tptp` as it is used (runner/tptp.rs:96-150): an atom, a negated atom, or a
disequality. Atoms and terms are trees of (unquoted) symbols and variables. -/
inductive Lit
  | pos (a : TF)
  | neg (a : TF)
  | ne (l r : TF)

/-- Models the conversion of literals (runner/tptp.rs:96-119); the names are those of `NOT_TA`, `NOT`, `EQUALITY`. -/
def Lit.toTmp : Lit → TF
  | .pos a => a
  | .neg a => .app "ta$not" [a]
  | .ne l r => .app "not" [.app "=" [l, r]]

/-- `str::split("|")`. -/
def splitBar : List Char → List (List Char)
  | [] => [[]]
  | c :: cs => if c = '|' then [] :: splitBar cs else
    match splitBar cs with
    | [] => [[c]]
    | w :: ws => (c :: w) :: ws

/-- `str::contains`. -/
def contains (w : List Char) : List Char → Bool
  | [] => w.isPrefixOf []
  | c :: cs => w.isPrefixOf (c :: cs) || contains w cs

/-- One literal of a clause (searcher.rs:69-88, 119-139, 159-178): kept when it mentions a name, read, and converted
with a fresh sort and no variable. Debug assertions are off. -/
def instanceOf (K : String → Option (Fun G)) (names : List (List Char)) (parse : List Char → Option Lit) (s : List Char) :
    Option (Fm G) :=
  if names.any (fun w => contains w s) then
    match parse s with
    | some l =>
      match conv K false l.toTmp (.var 0) [] [none] with
      | .ok r => some r.1
      | _ => none
    | none => none
  else none

/-- Models `search_instances` (searcher.rs:52-180), the same for the three assumptions: `names` are those of `mac` and
`verify`, `sign` and `verify`, or `dec`; `clauses` are the texts captured. -/
def searchInstances (K : String → Option (Fun G)) (names : List (List Char)) (parse : List Char → Option Lit)
    (clauses : List (List Char)) : List (Fm G) :=
  (clauses.flatMap splitBar).filterMap (instanceOf K names parse)

end Disc
end CV
