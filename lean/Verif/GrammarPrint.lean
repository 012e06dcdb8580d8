import Verif.GrammarBugs
import Verif.SanitizeProps
/-
Printing of the statements of a protocol file (the `Display` instances of src/parser/ast/*.rs) and what is read back from what is
printed. Paths are relative to /repo/crates/cryptovampire. `squirrel/mod.rs:28-38` writes the converted Squirrel problem that way to the
file that `CRYTPOVAMPIRE_DUMP` names. Locations are not printed and not modelled.
-/
set_option linter.unusedVariables false
set_option linter.unusedSimpArgs false
namespace CV
namespace Txt2
open Prs (Out)

/-! ### The printer -/

/-- Models `Itertools::format`: the texts with the separator between them. -/
def sepBy (sep : Tx) : List Tx → Tx
  | [] => []
  | [a] => a
  | a :: b :: l => a ++ (sep ++ sepBy sep (b :: l))

/-- Models `VariableBinding::fmt` (src/parser/ast/bindings.rs:63-67). -/
def pBnd (b : Bnd) : Tx := b.1.toList ++ (':' :: b.2.toList)

/-- Models `TypedArgument::fmt` (src/parser/ast/bindings.rs:29-33). -/
def pBnds (l : List Bnd) : Tx := '(' :: (sepBy c!", " (l.map pBnd) ++ [')'])

/-- Models `Operation::as_str` and its `fmt` (src/parser/ast/infix.rs:64-68, 88-98). -/
def pOp : Op → Tx
  | .hardEq => c!"==="
  | .eq => c!"=="
  | .neq => c!"!="
  | .or => c!"||"
  | .and => c!"&&"
  | .implies => c!"=>"
  | .iff => c!"<=>"

/-- Models `QuantifierKind::fmt` (src/parser/ast/quantifier.rs:44-51). -/
def pQ : AQ → Tx
  | .all => c!"∀"
  | .ex => c!"∃"

/-- Models `OrderOperation::fmt` (src/parser/ast/ordering.rs:74-83). -/
def pOrd : OrderOp → Tx
  | .incompatible => c!"<>"
  | .lt => c!"<"
  | .gt => c!">"

mutual
/-- Models `Term::fmt` and `InnerTerm::fmt` (src/parser/ast/term.rs:37-41, 122-127), `LetIn::fmt` (let_in.rs:21-26), `IfThenElse::fmt`
(if_then_else.rs:21-31), `FindSuchThat::fmt` (find_such_that.rs:23-37), `Quantifier::fmt` (quantifier.rs:22-32), `Application::fmt`
(application.rs:70-79), `Infix::fmt` (infix.rs:36-41), `InnerAppMacro::fmt` (macros.rs:97-107) and `MacroName::fmt` (ident.rs:94-98).
The step of `msg!` and `cond!` is printed without brackets if it has no arguments: the model does not distinguish `s` from `s()` there. -/
def pTm : Tm → Tx
  | .letin v t₁ t₂ => c!"let " ++ (pBnd v ++ (c!" = " ++ (pTm t₁ ++ (c!" in " ++ pTm t₂))))
  | .ite c l r => c!"if " ++ (pTm c ++ (c!"\n{\n\t" ++ (pTm l ++ (c!"\n} else {\n\t" ++ (pTm r ++ c!"\n}")))))
  | .find v c l r => c!"try find " ++ (pBnds v ++ (c!"\nsuch that {" ++ (pTm c ++ (c!"}\nthen {" ++ (pTm l ++ (c!"}\nelse {" ++
      (pTm r ++ c!"}")))))))
  | .quant k v t => pQ k ++ (c!" " ++ (pBnds v ++ (c!" {" ++ (pTm t ++ c!"}"))))
  | .cvar x => x.toList
  | .app f l => f.toList ++ ('(' :: (sepBy c!", " (pTms l) ++ [')']))
  | .infx op l => '(' :: (sepBy (' ' :: (pOp op ++ [' '])) (pTms l) ++ [')'])
  | .msg s l => c!"msg!(" ++ ((match l with
      | [] => s.toList
      | _ :: _ => s.toList ++ ('(' :: (sepBy c!", " (pTms l) ++ [')']))) ++ [')'])
  | .cond s l => c!"cond!(" ++ ((match l with
      | [] => s.toList
      | _ :: _ => s.toList ++ ('(' :: (sepBy c!", " (pTms l) ++ [')']))) ++ [')'])
  | .mac m l => m.toList ++ ('!' :: '[' :: (sepBy c!", " (pTms l) ++ [']']))
/-- All of them. -/
def pTms : List Tm → List Tx
  | [] => []
  | t :: l => pTm t :: pTms l
end

/-- Models `Application::fmt` (src/parser/ast/application.rs:70-79). -/
def pAppl : Appl → Tx
  | .const x => x.toList
  | .app f l => f.toList ++ ('(' :: (sepBy c!", " (pTms l) ++ [')']))

/-- Models `Options::fmt` (src/parser/ast/options.rs:25-29). -/
def pOpts (l : List String) : Tx := '[' :: (sepBy c!", " (l.map String.toList) ++ [']'])

/-- Models `DeclareFunctionArgs::fmt` (src/parser/ast/functions.rs:79-87). -/
def pSorts : List String → Tx
  | [] => []
  | a :: l => '(' :: (sepBy c!", " ((a :: l).map String.toList) ++ [')'])

/-- Models `Assignement::fmt` (src/parser/ast/cell.rs:121-134). -/
def pAsg (a : Asg) : Tx :=
  (match a.fresh with
    | some v => pBnds v ++ c!" "
    | none => []) ++ (pAppl a.cell ++ (c!" <- " ++ pTm a.term))

/-- Models `Assert::fmt` (src/parser/ast/assertions.rs:30-38). -/
def pKind : AKind → Tx
  | .assert => c!"assert "
  | .query => c!"query "
  | .lemma => c!"lemma "

/-- Models the `fmt` of the statements: `DeclareType` (src/parser/ast/sorts.rs:39-44), `DeclareFunction` (functions.rs:52-63),
`DeclareCell` (cell.rs:23-34), `Step` (step.rs:96-113) and `Assignements` (cell.rs:67-71), `Order` (ordering.rs:48-61), `AssertCrypto`
(assertions.rs:94-108), `Assertion` (assertions.rs:54-61) and `Macro` (macros.rs:31-42). -/
def pStm : Stm → Tx
  | .type n o => c!"type " ++ (n.toList ++ (c!" " ++ pOpts o))
  | .func n a T o => c!"fun " ++ (n.toList ++ (pSorts a ++ (':' :: (T.toList ++ (c!" " ++ pOpts o)))))
  | .cell n a T o => c!"cell " ++ (n.toList ++ (pSorts a ++ (':' :: (T.toList ++ (c!" " ++ pOpts o)))))
  | .step n v c m as o => c!"step " ++ (n.toList ++ (pBnds v ++ (c!"\n\t{" ++ (pTm c ++ (c!"}\n\t{" ++ (pTm m ++ (c!"}" ++
      ((match as with
        | some l => c!"\n\t{" ++ (sepBy c!", " (l.map pAsg) ++ c!"}")
        | none => []) ++ (c!"\n" ++ pOpts o)))))))))
  | .order k v _ t₁ op t₂ o => c!"order " ++ (pQ k ++ (pBnds v ++ (c!"{" ++ (pTm t₁ ++ (c!" " ++ (pOrd op ++ (c!" " ++ (pTm t₂ ++
      (c!"} " ++ pOpts o)))))))))
  | .crypto n f o => c!"assert-crypto " ++ (n.toList ++ (c!" " ++ (sepBy c!" " (f.map String.toList) ++ (c!" " ++ pOpts o))))
  | .assert k t o => pKind k ++ (pTm t ++ (c!" " ++ pOpts o))
  | .mac n v t o => c!"let " ++ (n.toList ++ ('!' :: (pBnds v ++ (c!" = " ++ (pTm t ++ (c!" " ++ pOpts o))))))

/-- Models `ASTList::fmt` and `AST::fmt` (src/parser/ast/main.rs:57-61, 81-86). -/
def pFile : List Stm → Tx
  | [] => []
  | a :: l => pStm a ++ (c!"\n" ++ pFile l)

/-! ### What can be printed -/

section
variable (U : Char → Bool)

/-- SPECIFICATION. A binding that can be written. -/
def PBnd (b : Bnd) : Prop := VarTx U b.1.toList ∧ IdTx U b.2.toList

/-- SPECIFICATION. The terms with names that can be read, with at least two terms between brackets, and without `===`. -/
inductive PTm : Tm → Prop
  | letin (v : Bnd) (t₁ t₂ : Tm) : PBnd U v → PTm t₁ → PTm t₂ → PTm (.letin v t₁ t₂)
  | ite (c l r : Tm) : PTm c → PTm l → PTm r → PTm (.ite c l r)
  | find (v : List Bnd) (c l r : Tm) : (∀ b ∈ v, PBnd U b) → PTm c → PTm l → PTm r → PTm (.find v c l r)
  | quant (k : AQ) (v : List Bnd) (t : Tm) : (∀ b ∈ v, PBnd U b) → PTm t → PTm (.quant k v t)
  | cvar (x : String) : VPlain U x.toList → PTm (.cvar x)
  | app0 (f : String) : VPlain U f.toList → PTm (.app f [])
  | app (f : String) (l : List Tm) : Plain U f.toList → (∀ a ∈ l, PTm a) → PTm (.app f l)
  | infx (op : Op) (l : List Tm) : op ≠ .hardEq → 2 ≤ l.length → (∀ a ∈ l, PTm a) → PTm (.infx op l)
  | msg0 (f : String) : VPlain U f.toList → PTm (.msg f [])
  | msg (f : String) (l : List Tm) : Plain U f.toList → (∀ a ∈ l, PTm a) → PTm (.msg f l)
  | cond0 (f : String) : VPlain U f.toList → PTm (.cond f [])
  | cond (f : String) (l : List Tm) : Plain U f.toList → (∀ a ∈ l, PTm a) → PTm (.cond f l)
  | mac (m : String) (l : List Tm) : Plain U m.toList → m.toList ≠ c!"msg" → m.toList ≠ c!"cond" → (∀ a ∈ l, PTm a) → PTm (.mac m l)

/-- SPECIFICATION. The same for applications. -/
def PAppl (a : Appl) : Prop := PTm U a.tm

end

end Txt2

mutual
/-- SPECIFICATION. The term that is meant is read back, except that `f()` is read as `f`. -/
def Tm.back : Tm → Tm
  | .letin v t₁ t₂ => .letin v t₁.back t₂.back
  | .ite c l r => .ite c.back l.back r.back
  | .find v c l r => .find v c.back l.back r.back
  | .quant k v t => .quant k v t.back
  | .cvar x => .cvar x
  | .app f [] => .cvar f
  | .app f (a :: l) => .app f (a.back :: Tm.backs l)
  | .infx op l => .infx op (Tm.backs l)
  | .msg s l => .msg s (Tm.backs l)
  | .cond s l => .cond s (Tm.backs l)
  | .mac m l => .mac m (Tm.backs l)
/-- All of them. -/
def Tm.backs : List Tm → List Tm
  | [] => []
  | t :: l => t.back :: Tm.backs l
end

/-- SPECIFICATION. The terms whose text ends with a name. -/
def Tm.isOpen : Tm → Bool
  | .cvar _ => true
  | .letin _ _ t => t.isOpen
  | _ => false

namespace Txt2

/-- SPECIFICATION. The same for applications. -/
def Appl.back : Appl → Appl
  | .const x => .const x
  | .app f [] => .const f
  | .app f (a :: l) => .app f (Tm.backs (a :: l))

/-- SPECIFICATION. An assignment is read with variables, possibly none. -/
def Asg.back (a : Asg) : Asg := ⟨some (a.fresh.getD []), a.cell.back, a.term.back⟩

/-- SPECIFICATION. The same for statements. -/
def Stm.back : Stm → Stm
  | .step n v c m as o => .step n v c.back m.back (as.map (List.map Asg.back)) o
  | .order k v g t₁ op t₂ o => .order k v g t₁.back op t₂.back o
  | .assert k t o => .assert k t.back o
  | .mac n v t o => .mac n v t.back o
  | s => s

section
variable (U : Char → Bool)

/-- SPECIFICATION. At most one option, and none after a name. -/
def POpts (o : Bool) (l : List String) : Prop := (∀ x ∈ l, IdTx U x.toList) ∧ l.length ≤ if o then 0 else 1

/-- SPECIFICATION. The statements that can be printed: with names and terms that can be, at most one option, assignments for steps, and
no guards of orders. -/
def PStm : Stm → Prop
  | .type n o => IdTx U n.toList ∧ POpts U false o
  | .func n a T o => IdTx U n.toList ∧ (∀ x ∈ a, IdTx U x.toList) ∧ IdTx U T.toList ∧ POpts U false o
  | .cell n a T o => IdTx U n.toList ∧ (∀ x ∈ a, IdTx U x.toList) ∧ IdTx U T.toList ∧ POpts U false o
  | .step n v c m as o => IdTx U n.toList ∧ (∀ b ∈ v, PBnd U b) ∧ PTm U c ∧ PTm U m ∧
      (∃ l, as = some l ∧ ∀ a ∈ l, (∀ b ∈ a.fresh.getD [], PBnd U b) ∧ PAppl U a.cell ∧ PTm U a.term) ∧ POpts U false o
  | .order _ v g t₁ _ t₂ o => (∀ b ∈ v, PBnd U b) ∧ g = none ∧ PTm U t₁ ∧ PTm U t₂ ∧ POpts U false o
  | .crypto n f o => IdTx U n.toList ∧ (∀ x ∈ f, IdTx U x.toList) ∧ POpts U false o
  | .assert _ t o => PTm U t ∧ POpts U t.isOpen o
  | .mac n v t o => IdTx U n.toList ∧ (∀ b ∈ v, PBnd U b) ∧ PTm U t ∧ POpts U t.isOpen o

/-! ### Proofs -/

theorem pTms_map (l : List Tm) : pTms l = l.map pTm := by
  induction l with
  | nil => rfl
  | cons a l ih => simp [pTms, ih]

theorem backs_map (l : List Tm) : Tm.backs l = l.map Tm.back := by
  induction l with
  | nil => rfl
  | cons a l ih => simp [Tm.backs, ih]

variable {U}

theorem bl1 : Blank c!" " := .ws ' ' [] rfl .nil
theorem bln : Blank c!"\n" := .ws '\n' [] rfl .nil
theorem blnt : Blank c!"\n\t" := .ws '\n' _ rfl (.ws '\t' _ rfl .nil)

theorem items_print {α : Type} {W : α → Tx → Prop} (p : α → Tx) : ∀ l : List α, (∀ a ∈ l, W a (p a)) →
    Items W l (sepBy c!", " (l.map p))
  | [], _ => .nil
  | [a], h => by simpa [sepBy] using Items.one (W := W) a (p a) [] (h a (by simp)) .nil
  | a :: b :: l, h => by
    have := Items.cons (W := W) a (b :: l) (p a) [] c!" " _ (h a (by simp)) .nil bl1 (items_print p (b :: l) fun x hx => h x (by simp [hx]))
    simpa [sepBy] using this

theorem args_print {b : Tm → Tm} {p : Tm → Tx} : ∀ l : List Tm, (∀ a ∈ l, ∃ o, WTm U o (b a) (p a)) →
    WArgs U (l.map b) (sepBy c!", " (l.map p))
  | [], _ => .nil
  | [a], h => by
    obtain ⟨o, ho⟩ := h a (by simp)
    simpa [sepBy] using WArgs.one o _ _ [] ho .nil
  | a :: a' :: l, h => by
    obtain ⟨o, ho⟩ := h a (by simp)
    have := WArgs.cons o _ _ _ [] c!" " _ ho .nil bl1 (args_print (a' :: l) fun x hx => h x (by simp [hx]))
    simpa [sepBy] using this

theorem op_print (op : Op) (h : op ≠ .hardEq) : WOp op (pOp op) := by
  cases op with
  | hardEq => exact absurd rfl h
  | eq => exact .eq
  | neq => exact .neq
  | or => exact .or
  | and => exact .and
  | implies => exact .implies
  | iff => exact .iff

theorem infix_print {op : Op} (h : op ≠ .hardEq) {b : Tm → Tm} {p : Tm → Tx} : ∀ (l : List Tm) (a : Tm) (o : Bool), l ≠ [] →
    (∀ a ∈ l, ∃ o, WTm U o (b a) (p a)) → ∃ s, WInfix U op o (l.map b) s ∧
      p a ++ s = sepBy (' ' :: (pOp op ++ [' '])) ((a :: l).map p) ++ [')']
  | [x], a, o, _, hl => by
    obtain ⟨o', ho'⟩ := hl x (by simp)
    refine ⟨_, .cons op o o' _ [] c!" " _ c!" " _ _ ⟨bl1, by simp⟩ (op_print op h) bl1 ho' (.nil op o' [] .nil), ?_⟩
    simp [sepBy]
  | x :: y :: l, a, o, _, hl => by
    obtain ⟨o', ho'⟩ := hl x (by simp)
    obtain ⟨s, hs, e⟩ := infix_print h (y :: l) x o' (by simp) fun z hz => hl z (by simp [hz])
    refine ⟨_, .cons op o o' _ _ c!" " _ c!" " _ _ ⟨bl1, by simp⟩ (op_print op h) bl1 ho' hs, ?_⟩
    rw [e]
    simp [sepBy]

theorem bnd_print {b : Bnd} (h : PBnd U b) : WBnd U b (pBnd b) := .mk b.1 b.2 [] [] h.1 h.2 .nil .nil

theorem bnds_print {l : List Bnd} (h : ∀ b ∈ l, PBnd U b) : WBnds U l (pBnds l) :=
  .some l [] _ .nil (items_print pBnd l fun b hb => bnd_print (h b hb))

theorem q_print (k : AQ) : WQ k (pQ k) := by
  cases k
  · exact .all'
  · exact .ex'

theorem ord_print (k : OrderOp) : WOrd k (pOrd k) := by
  cases k
  · exact .inc
  · exact .lt
  · exact .gt

theorem tm_print {t : Tm} (h : PTm U t) : WTm U t.isOpen t.back (pTm t) := by
  have ar : ∀ l : List Tm, (∀ a ∈ l, WTm U a.isOpen a.back (pTm a)) → WArgs U (Tm.backs l) (sepBy c!", " (pTms l)) := fun l hl => by
    rw [pTms_map, backs_map]
    exact args_print l fun a ha => ⟨_, hl a ha⟩
  have ap : ∀ (f : String) (l : List Tm), Plain U f.toList → (∀ a ∈ l, WTm U a.isOpen a.back (pTm a)) →
      WAppl U false (Appl.back (.app f l)) (pAppl (.app f l)) := fun f l hf hl => by
    cases l with
    | nil => exact .const0 f '(' ')' [] [] (.inl hf) (.inl ⟨rfl, rfl⟩) .nil .nil
    | cons a l => exact .app f '(' ')' _ _ [] [] _ hf (.inl ⟨rfl, rfl⟩) .nil .nil (ar _ hl)
  have br : ∀ {o : Char} {c : Char}, (o = '(' ∧ c = ')') → Br o c := fun h => .inl h
  induction h with
  | letin v t₁ t₂ hv _ _ ih₁ ih₂ =>
    have := WTm.letin (U := U) _ _ v _ _ c!" " _ c!" " c!" " _ c!" " c!" " _ bl1 (bnd_print hv) bl1 bl1 ih₁ ⟨bl1, by simp⟩ bl1 ih₂
    simpa [pTm, Tm.back, Tm.isOpen] using this
  | ite c l r _ _ _ ih₁ ih₂ ih₃ =>
    have := WTm.ite (U := U) _ _ _ _ _ _ c!" " _ c!"\n" c!"\n\t" _ c!"\n" c!" " c!" " c!"\n\t" _ c!"\n" bl1 ih₁ bln blnt ih₂ bln bl1 bl1
      blnt ih₃ bln
    simpa [pTm, Tm.back, Tm.isOpen] using this
  | find v c l r hv _ _ _ ih₁ ih₂ ih₃ =>
    have := WTm.find (U := U) _ _ _ _ _ _ _ c!" " c!" " _ c!"\n" c!" " c!" " [] _ [] c!"\n" c!" " [] _ [] c!"\n" c!" " [] _ [] bl1 bl1
      (bnds_print hv) bln bl1 bl1 .nil ih₁ .nil bln bl1 .nil ih₂ .nil bln bl1 .nil ih₃ .nil
    simpa [pTm, Tm.back, Tm.isOpen] using this
  | quant k v t hv _ ih =>
    have := WTm.quant (U := U) _ k v _ _ c!" " _ c!" " [] _ [] (q_print k) bl1 (bnds_print hv) bl1 .nil ih .nil
    simpa [pTm, Tm.back, Tm.isOpen] using this
  | cvar x hx => exact .appl true (.const x) _ (.const x hx)
  | app0 f hf => exact .appl false (.const f) _ (.const0 f '(' ')' [] [] hf (.inl ⟨rfl, rfl⟩) .nil .nil)
  | app f l hf hl ih =>
    have := WTm.appl _ _ _ (ap f l hf ih)
    cases l with
    | nil => simpa [pTm, Tm.back, Tm.isOpen, Appl.back, Appl.tm, pAppl] using this
    | cons a l => simpa [pTm, Tm.back, Tm.isOpen, Appl.back, Appl.tm, pAppl, Tm.backs] using this
  | infx op l hop hl _ ih =>
    match l, hl, ih with
    | a :: b :: l, _, ih =>
      obtain ⟨s, hs, e⟩ := infix_print (U := U) hop (b := Tm.back) (p := pTm) (b :: l) a a.isOpen (by simp)
        fun x hx => ⟨_, ih x (List.mem_cons_of_mem a hx)⟩
      have := WTm.infx op a.isOpen a.back _ [] _ s .nil (ih a (by simp)) (by simp) hs
      rw [List.nil_append, e] at this
      simpa only [pTm, Tm.back, Tm.isOpen, pTms_map, backs_map, List.map_cons] using this
  | msg0 f hf =>
    have := WTm.msg (U := U) true '(' ')' (.const f) [] [] _ [] (.inl ⟨rfl, rfl⟩) .nil .nil (.const f hf) .nil
    simpa [pTm, Tm.back, Tm.isOpen, Appl.toTm, Tm.backs] using this
  | msg f l hf hl ih =>
    cases l with
    | nil =>
      have := WTm.msg (U := U) true '(' ')' (.const f) [] [] _ [] (.inl ⟨rfl, rfl⟩) .nil .nil (.const f (.inl hf)) .nil
      simpa [pTm, Tm.back, Tm.isOpen, Appl.toTm, Tm.backs] using this
    | cons a l =>
      have := WTm.msg (U := U) false '(' ')' _ [] [] _ [] (.inl ⟨rfl, rfl⟩) .nil .nil (ap f (a :: l) hf ih) .nil
      simpa [pTm, Tm.back, Tm.isOpen, Appl.toTm, Tm.backs, Appl.back, pAppl] using this
  | cond0 f hf =>
    have := WTm.cond (U := U) true '(' ')' (.const f) [] [] _ [] (.inl ⟨rfl, rfl⟩) .nil .nil (.const f hf) .nil
    simpa [pTm, Tm.back, Tm.isOpen, Appl.toTm, Tm.backs] using this
  | cond f l hf hl ih =>
    cases l with
    | nil =>
      have := WTm.cond (U := U) true '(' ')' (.const f) [] [] _ [] (.inl ⟨rfl, rfl⟩) .nil .nil (.const f (.inl hf)) .nil
      simpa [pTm, Tm.back, Tm.isOpen, Appl.toTm, Tm.backs] using this
    | cons a l =>
      have := WTm.cond (U := U) false '(' ')' _ [] [] _ [] (.inl ⟨rfl, rfl⟩) .nil .nil (ap f (a :: l) hf ih) .nil
      simpa [pTm, Tm.back, Tm.isOpen, Appl.toTm, Tm.backs, Appl.back, pAppl] using this
  | mac m l hm h₁ h₂ hl ih =>
    exact .mac m '[' ']' _ [] [] _ hm h₁ h₂ (.inr ⟨rfl, rfl⟩) .nil .nil (ar l ih)

theorem appl_print {a : Appl} (h : PAppl U a) : ∃ o, WAppl U o a.back (pAppl a) := by
  cases a with
  | const x =>
    cases h with
    | cvar _ hx => exact ⟨true, .const x hx⟩
  | app f l =>
    cases h with
    | app0 _ hf => exact ⟨false, .const0 f '(' ')' [] [] hf (.inl ⟨rfl, rfl⟩) .nil .nil⟩
    | app _ _ hf hl =>
      cases l with
      | nil => exact ⟨false, .const0 f '(' ')' [] [] (.inl hf) (.inl ⟨rfl, rfl⟩) .nil .nil⟩
      | cons a l =>
        refine ⟨false, .app f '(' ')' _ _ [] [] _ hf (.inl ⟨rfl, rfl⟩) .nil .nil ?_⟩
        have := args_print (U := U) (b := Tm.back) (p := pTm) (a :: l) fun x hx => ⟨_, tm_print (hl x hx)⟩
        rw [← pTms_map, ← backs_map] at this
        exact this

theorem asg_print {a : Asg} (h : (∀ b ∈ a.fresh.getD [], PBnd U b) ∧ PAppl U a.cell ∧ PTm U a.term) : WAsg U a.back (pAsg a) := by
  obtain ⟨f, c, t⟩ := a
  obtain ⟨h₁, h₂, h₃⟩ := h
  obtain ⟨o, ho⟩ := appl_print h₂
  cases f with
  | none =>
    have := WAsg.plain (U := U) _ _ _ _ _ c!" " c!" " _ ho bl1 bl1 (tm_print h₃)
    simpa [Asg.back, pAsg] using this
  | some v =>
    have := WAsg.vars (U := U) _ _ v _ _ [] _ c!" " _ c!" " c!" " _ .nil (items_print pBnd v fun b hb => bnd_print (h₁ b hb)) bl1 ho bl1 bl1
      (tm_print h₃)
    simpa [Asg.back, pAsg, pBnds] using this

theorem sorts_print : ∀ {a : List String}, (∀ x ∈ a, IdTx U x.toList) → WSorts U a (pSorts a)
  | [], _ => .none
  | a :: l, h => .some _ [] _ .nil (items_print String.toList (a :: l) fun x hx => ⟨h x hx, rfl⟩)

theorem tail_print {e : End} {l : List String} (h : POpts U false l) (w : Tx) (hw : Blank w) :
    WTail U true e l (w ++ pOpts l) .closed := by
  match l, h with
  | [], h => exact .some [] w [] [] rfl hw .nil .nil
  | [x], h => exact .some [x] w [] _ rfl hw .nil (by simpa [sepBy] using WIds.one (U := U) x [] (h.1 x (by simp)) .nil)
  | _ :: _ :: _, h => exact absurd h.2 (by simp)

/-- What ends with a name can be followed by brackets with nothing inside. -/
theorem open_close {t : Tm} {s : Tx} (h : WTm U true t s) : WTm U false t (s ++ c!" []") := by
  suffices key : ∀ {o : Bool} {t : Tm} {s : Tx}, WTm U o t s → o = true → WTm U false t (s ++ c!" []") from key h rfl
  clear h s t
  intro o t s h
  refine WTm.rec (motive_1 := fun _ _ _ _ => True) (motive_2 := fun o t s _ => o = true → WTm U false t (s ++ c!" []"))
    (motive_3 := fun _ _ _ _ _ => True) (motive_4 := fun _ _ _ => True) ?_ ?_ ?_ ?_ ?_ ?_ ?_ ?_ ?_ ?_ ?_ ?_ ?_ ?_ ?_ ?_ ?_ ?_ h
  case refine_4 =>
    intro o a s ha _ ho
    cases ha with
    | const x hx => exact .appl false (.const x) _ (.const0 x '[' ']' c!" " [] hx (.inr ⟨rfl, rfl⟩) bl1 .nil)
    | const0 => cases ho
    | app => cases ho
  case refine_5 =>
    intro o o₁ v t₁ t₂ w₁ b w₂ w₃ s₁ w₄ w₅ s₂ h₁ hv h₂ h₃ ht₁ h₄ h₅ _ _ ih ho
    have := WTm.letin false o₁ v t₁ t₂ w₁ b w₂ w₃ s₁ w₄ w₅ _ h₁ hv h₂ h₃ ht₁ h₄ h₅ (ih ho)
    simpa using this
  case refine_10 =>
    intro m hm h₁ h₂ _
    have := WTm.mac (U := U) m '[' ']' [] c!" " [] [] hm h₁ h₂ (.inr ⟨rfl, rfl⟩) bl1 .nil .nil
    simpa using this
  all_goals intros; trivial

/-- Terms and the options after them. -/
theorem tm_tail {t : Tm} {l : List String} (h : PTm U t) (hl : POpts U t.isOpen l) :
    ∃ s tl, WTm U false t.back s ∧ WTail U true .closed l tl .closed ∧ pTm t ++ (c!" " ++ pOpts l) = s ++ tl := by
  have ht := tm_print h
  cases ho : t.isOpen with
  | true =>
    rw [ho] at ht hl
    match l, hl with
    | [], _ => exact ⟨_, [], open_close ht, .none, by simp [pOpts, sepBy]⟩
    | _ :: _, hl => exact absurd hl.2 (by simp)
  | false =>
    rw [ho] at ht hl
    exact ⟨_, _, ht, tail_print hl c!" " bl1, rfl⟩

theorem fns_print : ∀ {f : List String}, (∀ x ∈ f, IdTx U x.toList) → ∃ s w, WFns U f s ∧ Blank w ∧
    s ++ w = c!" " ++ (sepBy c!" " (f.map String.toList) ++ c!" ")
  | [], _ => ⟨[], c!"  ", .nil, .ws ' ' _ rfl bl1, rfl⟩
  | [x], h => ⟨_, c!" ", .cons x [] c!" " [] bl1 (by simp) (h x (by simp)) .nil, bl1, by simp [sepBy]⟩
  | x :: y :: l, h => by
    obtain ⟨s, w, hs, hw, e⟩ := fns_print (f := y :: l) fun z hz => h z (by simp [hz])
    refine ⟨_, w, .cons x _ c!" " s bl1 (by simp) (h x (by simp)) hs, hw, ?_⟩
    simp only [List.append_assoc, e]
    simp [sepBy]

theorem stm_print {a : Stm} (h : PStm U a) : WStm U .closed a.back (pStm a) := by
  cases a with
  | type n o => exact .type .closed n o c!" " _ h.1 bl1 (tail_print h.2 c!" " bl1)
  | func n a T o =>
    exact .func .closed n T a o c!" " [] _ [] [] _ h.1 h.2.2.1 bl1 .nil (sorts_print h.2.1) .nil .nil
      (tail_print h.2.2.2 c!" " bl1)
  | cell n a T o =>
    exact .cell .closed n T a o c!" " [] _ [] [] _ h.1 h.2.2.1 bl1 .nil (sorts_print h.2.1) .nil .nil
      (tail_print h.2.2.2 c!" " bl1)
  | step n v c m as o =>
    obtain ⟨hn, hv, hc, hm, ⟨l, rfl, hl⟩, ho⟩ := h
    have hi : Items (WAsg U) (l.map Asg.back) (sepBy c!", " (l.map pAsg)) := by
      have : ∀ l : List Asg, (∀ a ∈ l, WAsg U a.back (pAsg a)) → Items (WAsg U) (l.map Asg.back) (sepBy c!", " (l.map pAsg)) := by
        intro l
        induction l with
        | nil => exact fun _ => .nil
        | cons a l ih =>
          intro h
          cases l with
          | nil => simpa [sepBy] using Items.one (W := WAsg U) a.back (pAsg a) [] (h a (by simp)) .nil
          | cons b l =>
            have := Items.cons (W := WAsg U) a.back _ (pAsg a) [] c!" " _ (h a (by simp)) .nil bl1 (ih fun x hx => h x (by simp [hx]))
            simpa [sepBy] using this
      exact this l fun a ha => asg_print (hl a ha)
    have := WStm.step (U := U) .closed _ _ n v _ _ _ o c!" " [] _ c!"\n\t" [] _ [] c!"\n\t" [] _ [] c!"\n\t" [] _ _ hn bl1 .nil (bnds_print hv)
      blnt .nil (tm_print hc) .nil blnt .nil (tm_print hm) .nil blnt .nil hi (tail_print ho c!"\n" bln)
    simpa [Stm.back, pStm] using this
  | order k v g t₁ op t₂ o =>
    obtain ⟨hv, rfl, h₁, h₂, ho⟩ := h
    have := WStm.order (U := U) .closed _ k v none _ _ op o _ c!" " [] _ [] [] _ [] _ (q_print k) bl1 .nil (bnds_print hv) .nil .nil
      (.plain _ _ _ _ op _ _ c!" " c!" " _ (tm_print h₁) bl1 (ord_print op) bl1 (tm_print h₂)) .nil (tail_print ho c!" " bl1)
    simpa [Stm.back, pStm] using this
  | crypto n f o =>
    obtain ⟨hn, hf, ho⟩ := h
    obtain ⟨s, w, hs, hw, e⟩ := fns_print hf
    have := WStm.crypto (U := U) .closed n f o c!" " s _ hn bl1 hs (tail_print ho w hw)
    rw [← List.append_assoc s, e] at this
    simpa [Stm.back, pStm] using this
  | assert k t o =>
    obtain ⟨s, tl, hs, ht, e⟩ := tm_tail h.1 h.2
    have := WStm.assert (U := U) .closed false k _ o c!" " s tl bl1 hs ht
    rw [← e] at this
    cases k <;> simpa [Stm.back, pStm, pKind, AKind.kw] using this
  | mac n v t o =>
    obtain ⟨hn, hv, h₁, h₂⟩ := h
    obtain ⟨s, tl, hs, ht, e⟩ := tm_tail h₁ h₂
    have := WStm.mac (U := U) .closed false n v _ o c!" " [] _ c!" " c!" " s tl hn bl1 .nil (bnds_print hv) bl1 bl1 hs ht
    rw [← e] at this
    simpa [Stm.back, pStm] using this

theorem file_print : ∀ {l : List Stm}, l ≠ [] → (∀ a ∈ l, PStm U a) → WStms U (l.map Stm.back) (pFile l)
  | [a], _, h => by
    have := WStms.one (U := U) .closed _ _ c!"\n" (stm_print (h a (by simp))) bln
    simpa [pFile] using this
  | a :: b :: l, _, h => .cons .closed _ _ _ c!"\n" _ (stm_print (h a (by simp))) bln nofun nofun
      (file_print (by simp) fun x hx => h x (by simp [hx]))

end
end Txt2

open Txt2
open Prs (Out)

/-- **C76, the part that holds.** What is printed is read, and as what was printed, up to `f()` for `f` and no variables for none, if the
names are such that they can be read, there is at most one option, and none after a name, steps have assignments, orders have no
guard, and infix operators have at least two arguments and are not `===`. MISSING: the other statements, see the counterexamples. -/
theorem C76_print_read_partial (dbg : Bool) (U : Char → Bool) (l : List Stm) (h : l ≠ []) (hl : ∀ a ∈ l, PStm U a) :
    Reads dbg U (pFile l) (.ok (l.map Stm.back)) :=
  C72_file_read dbg U _ _ ⟨[], _, .nil, file_print h hl, rfl⟩

/-- **C76, refuted.** The guard of an order is not printed, so that what is read orders more steps than what was printed. -/
theorem C76_guard_counterexample (dbg : Bool) (U : Char → Bool) (k : AQ) (v : List Bnd) (g t₁ t₂ : Tm) (op : OrderOp) (o : List String)
    (h : PStm U (.order k v none t₁ op t₂ o)) :
    Reads dbg U (pFile [.order k v (some g) t₁ op t₂ o]) (.ok [.order k v none t₁.back op t₂.back o]) :=
  C76_print_read_partial dbg U [.order k v none t₁ op t₂ o] (by simp) (by simpa using h)

section
variable (U : Char → Bool)
set_option maxRecDepth 100000

/-- **C76, refuted.** A declaration with two options is printed as a text that is not read, because of the comma. -/
theorem C76_options_counterexample (dbg : Bool) :
    Reads dbg U (pFile [.type (.ofList c!"T") [.ofList c!"a", .ofList c!"b"]]) .err ∧
    Reads dbg U (pFile [.type (.ofList c!"T") [.ofList c!"a"]]) (.ok [.type (.ofList c!"T") [.ofList c!"a"]]) := by
  cases dbg <;> exact ⟨.at 120 (by with_unfolding_all rfl), .at 120 (by with_unfolding_all rfl)⟩

/-- **C76, refuted.** The options of an assertion that ends with a name are read as its arguments. -/
theorem C76_arguments_counterexample (dbg : Bool) :
    Reads dbg U (pFile [.assert .assert (.cvar (.ofList c!"x")) [.ofList c!"a", .ofList c!"b"]])
      (.ok [.assert .assert (.app (.ofList c!"x") [.cvar (.ofList c!"a"), .cvar (.ofList c!"b")]) []]) := by
  cases dbg <;> exact .at 120 (by with_unfolding_all rfl)

/-- **C76, refuted.** What is printed of a step without assignments crashes a debug build, and is read with assignments by a release
build, which crashes if the step has an option. -/
theorem C76_step_counterexample :
    Reads true U (pFile [.step (.ofList c!"s") [] (.cvar (.ofList c!"a")) (.cvar (.ofList c!"b")) none []]) .panic ∧
    Reads false U (pFile [.step (.ofList c!"s") [] (.cvar (.ofList c!"a")) (.cvar (.ofList c!"b")) none []])
      (.ok [.step (.ofList c!"s") [] (.cvar (.ofList c!"a")) (.cvar (.ofList c!"b")) (some []) []]) ∧
    Reads false U (pFile [.step (.ofList c!"s") [] (.cvar (.ofList c!"a")) (.cvar (.ofList c!"b")) none [.ofList c!"o"]]) .panic :=
  ⟨.at 120 (by with_unfolding_all rfl), .at 120 (by with_unfolding_all rfl), .at 120 (by with_unfolding_all rfl)⟩

/-- **C76, refuted.** `===` cannot be read, nor can an operator with one argument. -/
theorem C76_infix_counterexample (dbg : Bool) :
    Reads dbg U (pFile [.assert .assert (.infx .hardEq [.cvar (.ofList c!"x"), .cvar (.ofList c!"y")]) []]) .err ∧
    Reads dbg U (pFile [.assert .assert (.infx .and [.cvar (.ofList c!"x")]) []]) .err := by
  cases dbg <;> exact ⟨.at 120 (by with_unfolding_all rfl), .at 120 (by with_unfolding_all rfl)⟩

/-- A file that can be printed: a declaration with an option, a step with an assignment, an order, a query that ends with a name. -/
theorem Txt2.print_example : ∀ a ∈ [Stm.func (.ofList c!"f") [.ofList c!"T", .ofList c!"T"] (.ofList c!"T") [.ofList c!"o"],
    .step (.ofList c!"s") [(.ofList c!"i", .ofList c!"T")] (.cvar (.ofList c!"a")) (.app (.ofList c!"b") [])
      (some [⟨none, .app (.ofList c!"c") [.cvar (.ofList c!"i")], .infx .eq [.cvar (.ofList c!"x"), .cvar (.ofList c!"y")]⟩]) [],
    .order .all [] none (.cvar (.ofList c!"s")) .lt (.cvar (.ofList c!"t")) [],
    .assert .query (.letin (.ofList c!"x", .ofList c!"T") (.cvar (.ofList c!"a")) (.cvar (.ofList c!"x"))) []], PStm U a := by
  have id : ∀ c : Char, c.toNat < 128 ∧ c.isAlpha = true → IdTx U (String.ofList [c]).toList := fun c h => id1 U c h
  have v : ∀ c : Char, c.toNat < 128 ∧ c.isAlpha = true → PTm U (.cvar (String.ofList [c])) := fun c h => .cvar _ (.inl (plain1 U c h))
  intro a ha
  simp only [List.mem_cons, List.not_mem_nil, or_false] at ha
  rcases ha with rfl | rfl | rfl | rfl
  · refine ⟨id 'f' (by decide), ?_, id 'T' (by decide), ?_, by simp⟩
    · intro x hx
      simp only [List.mem_cons, List.not_mem_nil, or_false, or_self] at hx
      exact hx ▸ id 'T' (by decide)
    · intro x hx
      exact List.mem_singleton.1 hx ▸ id 'o' (by decide)
  · refine ⟨id 's' (by decide), ?_, v 'a' (by decide), .app0 _ (.inl (plain1 U 'b' (by decide))), ⟨_, rfl, ?_⟩, by simp, by simp⟩
    · intro b hb
      exact List.mem_singleton.1 hb ▸ ⟨.inl (id 'i' (by decide)), id 'T' (by decide)⟩
    · intro b hb
      rw [List.mem_singleton.1 hb]
      refine ⟨by simp, .app _ _ (plain1 U 'c' (by decide)) ?_, .infx _ _ (by simp) (by simp) ?_⟩
      · intro x hx
        exact List.mem_singleton.1 hx ▸ v 'i' (by decide)
      · intro x hx
        simp only [List.mem_cons, List.not_mem_nil, or_false] at hx
        rcases hx with rfl | rfl
        · exact v 'x' (by decide)
        · exact v 'y' (by decide)
  · exact ⟨by simp, rfl, v 's' (by decide), v 't' (by decide), by simp, by simp⟩
  · exact ⟨.letin _ _ _ ⟨.inl (id 'x' (by decide)), id 'T' (by decide)⟩ (v 'a' (by decide)) (v 'x' (by decide)), by simp, by simp⟩

example (dbg : Bool) : ∃ l, l ≠ [] ∧ Reads dbg U (pFile l) (.ok (l.map Stm.back)) :=
  ⟨_, by simp, C76_print_read_partial dbg U _ (by simp) (print_example U)⟩

end
end CV
