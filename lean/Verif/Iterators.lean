import Verif.Formula
/-
Model of crates/logic_formula/src: the explicit-stack formula iterators.
-/
namespace CV
variable {F : Type}

/-- Models `Content` (logic_formula/src/outers/mod.rs:5-8). -/
inductive Content (U F P : Type)
  | result (u : U)
  | next (f : Fm F) (p : P)

/-- Models the trait `FormulaIterator` (logic_formula/src/traits.rs:85-93): one visit consumes a
formula and its passing value, may change the iterator's own state, and pushes contents on the
pile, listed here in pushing order (`helper.extend_child` / `helper.push_result`,
outers/ref_pile.rs:32-43). -/
structure FIter (U F P S : Type) where
  visit : S → Fm F → P → S × List (Content U F P)

/-- Models collecting an `OwnedPile` (outers/owned_pile.rs:28-47): pop the top; a result is
yielded, a formula is visited and its pushes go on top in pushing order. The pile is a list
whose head is the top of the `Vec`. `none` = fuel exhausted. -/
def runPile {U P S : Type} (it : FIter U F P S) : Nat → S → List (Content U F P) → Option (List U)
  | _, _, [] => some []
  | 0, _, _ :: _ => none
  | n + 1, s, .result u :: π => (runPile it n s π).map (u :: ·)
  | n + 1, s, .next f p :: π =>
    let r := it.visit s f p
    runPile it n r.1 (r.2.reverse ++ π)

/-- Immediate subformulas: models `Destructed::args` of `RichFormula::destruct`
(formula/formula/formula.rs:311-326). -/
def Fm.args : Fm F → List (Fm F)
  | .var _ => []
  | .app _ as => as
  | .quant _ _ b => [b]

/-- Models `UsedVariableIterator` (iterators.rs:20-34). -/
def usedVarIter : FIter Var F Unit Unit where
  visit := fun _ f _ => ((), f.args.map (fun a => .next a ()) ++
    match f with
    | .var v => [.result v]
    | _ => [])

/-- Models `AllTermsIterator` (iterators.rs:105-116). -/
def allTermsIter : FIter (Fm F) F Unit Unit where
  visit := fun _ f _ => ((), [.result f] ++ f.args.map (fun a => .next a ()))

/-- Models `DepthIterator` (iterators.rs:40-51). -/
def depthIter : FIter Nat F Nat Unit where
  visit := fun _ f p => ((), [.result p] ++ f.args.map (fun a => .next a (p + 1)))

/-- Models `FreeVariableIterator` (iterators.rs:55-91). The state is the vector of bound
variables; membership is `Variable::eq`, i.e. by number (variable.rs:44). -/
def freeVarIter : FIter Var F Nat (List Var) where
  visit := fun bvars f p =>
    let bvars := bvars.take p
    match f with
    | .var v => (bvars, if (bvars.map Var.id).contains v.id then [] else [.result v])
    | .app _ args => (bvars, args.map (fun a => .next a p))
    | .quant _ vs b =>
      let bvars := bvars ++ vs
      (bvars, [.next b bvars.length])

/-- Models `Formula::used_vars_iter` (traits.rs:38-43), collected with enough fuel. -/
def usedVars (fuel : Nat) (f : Fm F) : Option (List Var) := runPile usedVarIter fuel () [.next f ()]

/-- Models `UsedVariableIterator::with` on several formulas (iterators.rs:8-17); they are put on
the pile in order, so the last one is on top. -/
def usedVarsWith (fuel : Nat) (fs : List (Fm F)) : Option (List Var) :=
  runPile usedVarIter fuel () (fs.map (fun f => Content.next f ())).reverse

/-- Models `Formula::free_vars_iter` (traits.rs:30-36). -/
def freeVars (fuel : Nat) (f : Fm F) : Option (List Var) := runPile freeVarIter fuel [] [.next f 0]

/-- Models `iter_with(AllTermsIterator, ())`. -/
def allTerms (fuel : Nat) (f : Fm F) : Option (List (Fm F)) :=
  runPile allTermsIter fuel () [.next f ()]

/-- Models `iter_with(DepthIterator, d)` (iterators.rs:40-51). -/
def depths (fuel d : Nat) (f : Fm F) : Option (List Nat) := runPile depthIter fuel () [.next f d]

end CV
