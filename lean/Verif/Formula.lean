/-
Formula datatype of CryptoVampire (`RichFormula`) and the operations on it that
every other module uses.  Function symbols are a type parameter `F`
(`Function<'bump>` is an opaque pointer compared by identity in the code).
-/
namespace CV

/-- Sorts. Models `Sort<'bump>` (crates/cryptovampire/src/formula/sort/mod.rs): an interned
pointer compared by identity.  Simplification: builtin sorts are constructors, user sorts
(`DeclareType`) are numbered. -/
inductive Srt
  | bool | message | condition | step | name | bitstring | index
  | user (n : Nat)
  deriving DecidableEq, Repr

/-- Models `Variable { id, sort }` (formula/variable.rs:20-23).  `id : u32` is a `Nat`
(simplification: no overflow of variable numbers). -/
structure Var where
  id : Nat
  sort : Srt
  deriving DecidableEq, Repr

/-- Models the two constructors of `Quantifier` (formula/quantifier.rs:16-26); the bound
variables are kept beside it in `Fm.quant`. -/
inductive QKind
  | all | ex
  deriving DecidableEq, Repr

/-- Models `RichFormula` (formula/formula/formula.rs:30-34). `Arc` sharing is erased. -/
inductive Fm (F : Type)
  | var (v : Var)
  | app (f : F) (args : List (Fm F))
  | quant (q : QKind) (vs : List Var) (body : Fm F)
  deriving Repr

namespace Fm
variable {F : Type}

/-- Structural induction with the hypothesis available for every argument. -/
@[elab_as_elim]
theorem ind {P : Fm F → Prop}
    (hvar : ∀ v, P (var v))
    (happ : ∀ f args, (∀ a ∈ args, P a) → P (app f args))
    (hquant : ∀ q vs b, P b → P (quant q vs b)) : ∀ f, P f
  | var v => hvar v
  | app f args => happ f args (fun a _ => ind hvar happ hquant a)
  | quant q vs b => hquant q vs b (ind hvar happ hquant b)

mutual
/-- Decidable equality of formulas (derived `PartialEq`, formula.rs:29). The release-mode
`Variable` equality ignores the sort (variable.rs:44); here equality compares the sort as well
(as the debug-mode assertion demands), and places where the code relies on id-only
equality use `Var.id` explicitly. -/
def decEq [DecidableEq F] : (a b : Fm F) → Decidable (a = b)
  | var v, var w =>
    if h : v = w then .isTrue (by rw [h]) else .isFalse (fun e => h (by injection e))
  | app f as, app g bs =>
    if h : f = g then
      match decEqs as bs with
      | .isTrue h' => .isTrue (by rw [h, h'])
      | .isFalse h' => .isFalse (fun e => h' (by injection e))
    else .isFalse (fun e => h (by injection e))
  | quant q vs b, quant q' vs' b' =>
    if h : q = q' ∧ vs = vs' then
      match decEq b b' with
      | .isTrue h' => .isTrue (by rw [h.1, h.2, h'])
      | .isFalse h' => .isFalse (fun e => h' (by injection e))
    else .isFalse (fun e => h (by injection e with a b _; exact ⟨a, b⟩))
  | var _, app _ _ => .isFalse (fun e => by cases e)
  | var _, quant _ _ _ => .isFalse (fun e => by cases e)
  | app _ _, var _ => .isFalse (fun e => by cases e)
  | app _ _, quant _ _ _ => .isFalse (fun e => by cases e)
  | quant _ _ _, var _ => .isFalse (fun e => by cases e)
  | quant _ _ _, app _ _ => .isFalse (fun e => by cases e)
def decEqs [DecidableEq F] : (a b : List (Fm F)) → Decidable (a = b)
  | [], [] => .isTrue rfl
  | a :: as, b :: bs =>
    match decEq a b with
    | .isTrue h =>
      match decEqs as bs with
      | .isTrue h' => .isTrue (by rw [h, h'])
      | .isFalse h' => .isFalse (fun e => h' (by injection e))
    | .isFalse h => .isFalse (fun e => h (by injection e))
  | [], _ :: _ => .isFalse (fun e => by cases e)
  | _ :: _, [] => .isFalse (fun e => by cases e)
end

instance [DecidableEq F] : DecidableEq (Fm F) := decEq

mutual
/-- Number of nodes (proof measure only, models no code). -/
def size : Fm F → Nat
  | var _ => 1
  | app _ args => 1 + sizes args
  | quant _ _ b => 1 + size b
def sizes : List (Fm F) → Nat
  | [] => 0
  | a :: as => size a + sizes as
end

theorem size_pos (f : Fm F) : 0 < size f := by cases f <;> simp [size] <;> omega

mutual
/-- Specification: variables with an occurrence not bound by an enclosing quantifier whose
bound variables are `bs` (bound-ness is by id, as `Variable::eq`, variable.rs:44). -/
def freeIn (bs : List Nat) : Fm F → List Var
  | var v => if v.id ∈ bs then [] else [v]
  | app _ args => freeIns bs args
  | quant _ vs b => freeIn (bs ++ vs.map Var.id) b
def freeIns (bs : List Nat) : List (Fm F) → List Var
  | [] => []
  | a :: as => freeIn bs a ++ freeIns bs as
end

/-- Specification: free variables. -/
def free (f : Fm F) : List Var := freeIn [] f

mutual
/-- Specification: all variable occurrences (binder lists are not occurrences, exactly as the
`UsedVariableIterator` of logic_formula/src/iterators.rs:20-34). -/
def vars : Fm F → List Var
  | var v => [v]
  | app _ args => varss args
  | quant _ _ b => vars b
def varss : List (Fm F) → List Var
  | [] => []
  | a :: as => vars a ++ varss as
end

mutual
/-- Specification: variables listed by some quantifier of the formula. -/
def bound : Fm F → List Var
  | var _ => []
  | app _ args => bounds args
  | quant _ vs b => vs ++ bound b
def bounds : List (Fm F) → List Var
  | [] => []
  | a :: as => bound a ++ bounds as
end

mutual
/-- Specification: all subformulas, with multiplicity. -/
def subs : Fm F → List (Fm F)
  | var v => [var v]
  | app f args => app f args :: subss args
  | quant q vs b => quant q vs b :: subs b
def subss : List (Fm F) → List (Fm F)
  | [] => []
  | a :: as => subs a ++ subss as
end

/-- Specification: no quantifier inside. -/
def QF (f : Fm F) : Prop := bound f = [] ∧ ∀ q vs b, quant q vs b ∉ subs f

theorem sizes_eq (l : List (Fm F)) : sizes l = (l.map size).sum := by
  induction l with
  | nil => rfl
  | cons a l ih => simp [sizes, ih]

theorem freeIns_eq (bs : List Nat) (l : List (Fm F)) : freeIns bs l = l.flatMap (freeIn bs) := by
  induction l with
  | nil => rfl
  | cons a l ih => simp [freeIns, ih]

theorem varss_eq (l : List (Fm F)) : varss l = l.flatMap vars := by
  induction l with
  | nil => rfl
  | cons a l ih => simp [varss, ih]

theorem bounds_eq (l : List (Fm F)) : bounds l = l.flatMap bound := by
  induction l with
  | nil => rfl
  | cons a l ih => simp [bounds, ih]

theorem subss_eq (l : List (Fm F)) : subss l = l.flatMap subs := by
  induction l with
  | nil => rfl
  | cons a l ih => simp [subss, ih]

theorem size_lt_of_mem {a : Fm F} {l : List (Fm F)} (h : a ∈ l) : size a ≤ sizes l := by
  induction l with
  | nil => cases h
  | cons b l ih =>
    simp [sizes]
    rcases List.mem_cons.1 h with rfl | h
    · omega
    · have := ih h; omega

/-! ### Building formulas -/

/-- Models `forall` (formula/formula/formula.rs:255-266): no quantifier when there is no
variable. -/
def mkForall (vs : List Var) (b : Fm F) : Fm F := if vs.isEmpty then b else quant .all vs b

/-- Models `exists` (formula/formula/formula.rs:268-279). -/
def mkExists (vs : List Var) (b : Fm F) : Fm F := if vs.isEmpty then b else quant .ex vs b

end Fm
end CV
