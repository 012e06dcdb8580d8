import Verif.GrammarLemmas
/-
SPECIFICATION: how a protocol file may be written, with any blanks and comments (see Grammar.lean for the model).
-/
set_option linter.unusedVariables false
namespace CV
namespace Txt2

section
variable (U : Char → Bool)

/-- SPECIFICATION. The letters, where `U` tells about the Unicode ones; quantifiers are none. -/
def Alpha (c : Char) : Bool := if c.toNat < 128 then c.isAlpha else U c && c != '∀' && c != '∃'

/-- SPECIFICATION. What names go on with. -/
def NameC (c : Char) : Bool := c.isAlphanum || Alpha U c || c == '_' || c == '-' || c == '\''

/-- SPECIFICATION. A letter, then letters, digits, `_`, `-` and `'`. -/
def IdTx (s : Tx) : Prop := ∃ c r, s = c :: r ∧ Alpha U c = true ∧ ∀ d ∈ r, NameC U d = true

/-- SPECIFICATION. The names that terms can start with: those that start with `if` or `tryfind` are left out, and the other
keywords themselves. -/
structure Plain (s : Tx) : Prop where
  id : IdTx U s
  nif : (c!"if").isPrefixOf s = false
  ntry : s ≠ c!"try"
  nfind : (c!"tryfind").isPrefixOf s = false
  nlet : s ≠ c!"let"
  nall : s ≠ c!"forall"
  nex : s ≠ c!"exists"

/-- SPECIFICATION. Variables: a name, or `_` and a name. -/
def VarTx (s : Tx) : Prop := IdTx U s ∨ ∃ r, s = '_' :: r ∧ IdTx U r

/-- SPECIFICATION. The name of a variable that can be a term. -/
def VPlain (s : Tx) : Prop := Plain U s ∨ ∃ r, s = '_' :: r ∧ IdTx U r

/-- SPECIFICATION. The brackets of arguments. -/
def Br (o c : Char) : Prop := (o = '(' ∧ c = ')') ∨ (o = '[' ∧ c = ']')

/-- SPECIFICATION. `x : T`. -/
inductive WBnd : Bnd → Tx → Prop
  | mk (x T : String) (w w' : Tx) : VarTx U x.toList → IdTx U T.toList → Blank w → Blank w' →
      WBnd (x, T) (x.toList ++ (w ++ (':' :: (w' ++ T.toList))))

/-- SPECIFICATION. `(x : T, …)`, or nothing if there are none. -/
inductive WBnds : List Bnd → Tx → Prop
  | none : WBnds [] []
  | some (l : List Bnd) (w s : Tx) : Blank w → Items (fun b t => WBnd U b t) l s → WBnds l ('(' :: (w ++ (s ++ [')'])))

/-- SPECIFICATION. The quantifiers. -/
inductive WQ : AQ → Tx → Prop
  | all : WQ .all c!"forall"
  | all' : WQ .all c!"∀"
  | ex : WQ .ex c!"exists"
  | ex' : WQ .ex c!"∃"

/-- SPECIFICATION. The infix operators; `===` cannot be written. -/
inductive WOp : Op → Tx → Prop
  | eq : WOp .eq c!"=="
  | neq : WOp .neq c!"!="
  | neq' : WOp .neq c!"<>"
  | or : WOp .or c!"||"
  | and : WOp .and c!"&&"
  | implies : WOp .implies c!"=>"
  | iff : WOp .iff c!"<=>"

/-- Something separates if it has to. -/
def Sep (o : Bool) (w : Tx) : Prop := Blank w ∧ (o = true → w ≠ [])

mutual
/-- SPECIFICATION. How a name alone or an application is written. The first argument tells whether the text ends with a name, so that
what follows must not continue it. -/
inductive WAppl : Bool → Appl → Tx → Prop
  | const (x : String) : VPlain U x.toList → WAppl true (.const x) x.toList
  | const0 (x : String) (o c : Char) (w w' : Tx) : VPlain U x.toList → Br o c → Blank w → Blank w' →
      WAppl false (.const x) (x.toList ++ (w ++ (o :: (w' ++ [c]))))
  | app (f : String) (o c : Char) (a : Tm) (l : List Tm) (w w' s : Tx) : Plain U f.toList → Br o c → Blank w → Blank w' →
      WArgs (a :: l) s → WAppl false (.app f (a :: l)) (f.toList ++ (w ++ (o :: (w' ++ (s ++ [c])))))
/-- SPECIFICATION. How a term is written. -/
inductive WTm : Bool → Tm → Tx → Prop
  | appl (o : Bool) (a : Appl) (s : Tx) : WAppl o a s → WTm o a.tm s
  | letin (o o₁ : Bool) (v : Bnd) (t₁ t₂ : Tm) (w₁ b w₂ w₃ s₁ w₄ w₅ s₂ : Tx) : Blank w₁ → WBnd U v b → Blank w₂ → Blank w₃ →
      WTm o₁ t₁ s₁ → Sep o₁ w₄ → Blank w₅ → WTm o t₂ s₂ →
      WTm o (.letin v t₁ t₂)
        (c!"let" ++ (w₁ ++ (b ++ (w₂ ++ ('=' :: (w₃ ++ (s₁ ++ (w₄ ++ (c!"in" ++ (w₅ ++ s₂))))))))))
  | ite (o₁ o₂ o₃ : Bool) (c l r : Tm) (w₁ s₁ w₂ w₃ s₂ w₄ w₅ w₆ w₇ s₃ w₈ : Tx) : Blank w₁ → WTm o₁ c s₁ → Blank w₂ →
      Blank w₃ → WTm o₂ l s₂ → Blank w₄ → Blank w₅ → Blank w₆ → Blank w₇ → WTm o₃ r s₃ → Blank w₈ →
      WTm false (.ite c l r)
        (c!"if" ++ (w₁ ++ (s₁ ++ (w₂ ++ ('{' :: (w₃ ++ (s₂ ++ (w₄ ++ ('}' :: (w₅ ++ (c!"else" ++ (w₆ ++
          ('{' :: (w₇ ++ (s₃ ++ (w₈ ++ ['}']))))))))))))))))
  | find (o₁ o₂ o₃ : Bool) (v : List Bnd) (c l r : Tm) (w₁ w₂ b w₃ w₄ w₅ w₆ s₁ w₇ w₈ w₉ w₁₀ s₂ w₁₁ w₁₂ w₁₃ w₁₄ s₃ w₁₅ : Tx) :
      Blank w₁ → Blank w₂ → WBnds U v b → Blank w₃ → Blank w₄ → Blank w₅ → Blank w₆ → WTm o₁ c s₁ → Blank w₇ → Blank w₈ →
      Blank w₉ → Blank w₁₀ → WTm o₂ l s₂ → Blank w₁₁ → Blank w₁₂ → Blank w₁₃ → Blank w₁₄ → WTm o₃ r s₃ → Blank w₁₅ →
      WTm false (.find v c l r)
        (c!"try" ++ (w₁ ++ (c!"find" ++ (w₂ ++ (b ++ (w₃ ++ (c!"such" ++ (w₄ ++ (c!"that" ++ (w₅ ++
          ('{' :: (w₆ ++ (s₁ ++ (w₇ ++ ('}' :: (w₈ ++ (c!"then" ++ (w₉ ++ ('{' :: (w₁₀ ++ (s₂ ++ (w₁₁ ++ ('}' :: (w₁₂ ++
          (c!"else" ++ (w₁₃ ++ ('{' :: (w₁₄ ++ (s₃ ++ (w₁₅ ++ ['}']))))))))))))))))))))))))))))))
  | quant (o : Bool) (k : AQ) (v : List Bnd) (t : Tm) (q w₁ b w₂ w₃ s w₄ : Tx) : WQ k q → Blank w₁ → WBnds U v b → Blank w₂ →
      Blank w₃ → WTm o t s → Blank w₄ →
      WTm false (.quant k v t) (q ++ (w₁ ++ (b ++ (w₂ ++ ('{' :: (w₃ ++ (s ++ (w₄ ++ ['}']))))))))
  | infx (op : Op) (o : Bool) (t : Tm) (l : List Tm) (w₁ s₁ s : Tx) : Blank w₁ → WTm o t s₁ → l ≠ [] → WInfix op o l s →
      WTm false (.infx op (t :: l)) ('(' :: (w₁ ++ (s₁ ++ s)))
  | mac0 (m : String) : Plain U m.toList → m.toList ≠ c!"msg" → m.toList ≠ c!"cond" → WTm true (.mac m []) (m.toList ++ ['!'])
  | mac (m : String) (o c : Char) (l : List Tm) (w w' s : Tx) : Plain U m.toList → m.toList ≠ c!"msg" → m.toList ≠ c!"cond" →
      Br o c → Blank w → Blank w' → WArgs l s → WTm false (.mac m l) (m.toList ++ ('!' :: (w ++ (o :: (w' ++ (s ++ [c]))))))
  | msg (o : Bool) (bo bc : Char) (a : Appl) (w w₁ s w₂ : Tx) : Br bo bc → Blank w → Blank w₁ → WAppl o a s → Blank w₂ →
      WTm false (a.toTm .msg) (c!"msg!" ++ (w ++ (bo :: (w₁ ++ (s ++ (w₂ ++ [bc]))))))
  | cond (o : Bool) (bo bc : Char) (a : Appl) (w w₁ s w₂ : Tx) : Br bo bc → Blank w → Blank w₁ → WAppl o a s → Blank w₂ →
      WTm false (a.toTm .cond) (c!"cond!" ++ (w ++ (bo :: (w₁ ++ (s ++ (w₂ ++ [bc]))))))
/-- SPECIFICATION. The rest of an infix term, whose previous term ended as the second argument tells: operator, term, and so on, with the
same operator, up to the closing bracket. -/
inductive WInfix : Op → Bool → List Tm → Tx → Prop
  | nil (op : Op) (o : Bool) (w : Tx) : Blank w → WInfix op o [] (w ++ [')'])
  | cons (op : Op) (o o' : Bool) (t : Tm) (l : List Tm) (w q w' s r : Tx) : Sep o w → WOp op q → Blank w' → WTm o' t s →
      WInfix op o' l r → WInfix op o (t :: l) (w ++ (q ++ (w' ++ (s ++ r))))
/-- SPECIFICATION. How the inside of brackets is written: the terms separated by commas, possibly one after the last. -/
inductive WArgs : List Tm → Tx → Prop
  | nil : WArgs [] []
  | one (o : Bool) (a : Tm) (t w : Tx) : WTm o a t → Blank w → WArgs [a] (t ++ w)
  | cons (o : Bool) (a : Tm) (l : List Tm) (t w w' s : Tx) : WTm o a t → Blank w → Blank w' → WArgs l s →
      WArgs (a :: l) (t ++ (w ++ (',' :: (w' ++ s))))
end

/-! ### Statements and files -/

/-- How a statement ends: with a closing bracket, with a name that what follows must not continue, or such that only `;` or the end of
the file may follow. -/
inductive End
  | closed | name | semi

/-- The end of a text that ends as a term does. -/
def End.of (o : Bool) : End := if o then .name else .closed

/-- SPECIFICATION. Names separated by blanks. -/
inductive WIds : List String → Tx → Prop
  | nil : WIds [] []
  | one (x : String) (w : Tx) : IdTx U x.toList → Blank w → WIds [x] (x.toList ++ w)
  | cons (x y : String) (l : List String) (w s : Tx) : IdTx U x.toList → Blank w → w ≠ [] → WIds (y :: l) s →
      WIds (x :: y :: l) (x.toList ++ (w ++ s))

/-- SPECIFICATION. The end of a statement: nothing, or options between square brackets, where these are possible. -/
inductive WTail (al : Bool) (e : End) : List String → Tx → End → Prop
  | none : WTail al e [] [] e
  | some (l : List String) (w w' s : Tx) : al = true → Blank w → Blank w' → WIds U l s →
      WTail al e l (w ++ ('[' :: (w' ++ (s ++ [']'])))) .closed

/-- SPECIFICATION. The sorts of the arguments of a function: `(S, …)`, or nothing if there are none. -/
inductive WSorts : List String → Tx → Prop
  | none : WSorts [] []
  | some (l : List String) (w s : Tx) : Blank w → Items (fun x t => IdTx U t ∧ t = x.toList) l s →
      WSorts l ('(' :: (w ++ (s ++ [')'])))

/-- SPECIFICATION. `(x : T, …) c(…) <- t`; the variables can be left out. -/
inductive WAsg : Asg → Tx → Prop
  | plain (o o' : Bool) (c : Appl) (t : Tm) (s₁ w₁ w₂ s₂ : Tx) : WAppl U o c s₁ → Blank w₁ → Blank w₂ → WTm U o' t s₂ →
      WAsg ⟨some [], c, t⟩ (s₁ ++ (w₁ ++ (c!"<-" ++ (w₂ ++ s₂))))
  | vars (o o' : Bool) (v : List Bnd) (c : Appl) (t : Tm) (w s w₀ s₁ w₁ w₂ s₂ : Tx) : Blank w → Items (fun b t => WBnd U b t) v s →
      Blank w₀ → WAppl U o c s₁ → Blank w₁ → Blank w₂ → WTm U o' t s₂ →
      WAsg ⟨some v, c, t⟩ ('(' :: (w ++ (s ++ (')' :: (w₀ ++ (s₁ ++ (w₁ ++ (c!"<-" ++ (w₂ ++ s₂)))))))))

/-- SPECIFICATION. The ordering operators. -/
inductive WOrd : OrderOp → Tx → Prop
  | inc : WOrd .incompatible c!"<>"
  | lt : WOrd .lt c!"<"
  | gt : WOrd .gt c!">"

/-- SPECIFICATION. `[guard =>] t1 op t2`. -/
inductive WOrder : Bool → Option Tm → Tm → OrderOp → Tm → Tx → Prop
  | plain (o₁ o₂ : Bool) (t₁ t₂ : Tm) (op : OrderOp) (q s₁ w₁ w₂ s₂ : Tx) : WTm U o₁ t₁ s₁ → Blank w₁ → WOrd op q → Blank w₂ →
      WTm U o₂ t₂ s₂ → WOrder o₂ none t₁ op t₂ (s₁ ++ (w₁ ++ (q ++ (w₂ ++ s₂))))
  | guard (o o₂ : Bool) (g t₁ t₂ : Tm) (op : OrderOp) (s₀ w w' s : Tx) : WTm U o g s₀ → Blank w → Blank w' →
      WOrder o₂ none t₁ op t₂ s → WOrder o₂ (some g) t₁ op t₂ (s₀ ++ (w ++ (c!"=>" ++ (w' ++ s))))

/-- SPECIFICATION. The functions of `assert-crypto`, each after a blank. -/
inductive WFns : List String → Tx → Prop
  | nil : WFns [] []
  | cons (f : String) (l : List String) (w s : Tx) : Blank w → w ≠ [] → IdTx U f.toList → WFns l s →
      WFns (f :: l) (w ++ (f.toList ++ s))

/-- SPECIFICATION. The keyword of an assertion. -/
def AKind.kw : AKind → Tx
  | .assert => c!"assert"
  | .query => c!"query"
  | .lemma => c!"lemma"

/-- SPECIFICATION. How a statement is written. -/
inductive WStm : End → Stm → Tx → Prop
  | type (e : End) (n : String) (l : List String) (w tl : Tx) : IdTx U n.toList → Blank w → WTail U true .name l tl e →
      WStm e (.type n l) (c!"type" ++ (w ++ (n.toList ++ tl)))
  | func (e : End) (n T : String) (a l : List String) (w₁ w₂ b w₃ w₄ tl : Tx) : IdTx U n.toList → IdTx U T.toList → Blank w₁ →
      Blank w₂ → WSorts U a b → Blank w₃ → Blank w₄ → WTail U true .name l tl e →
      WStm e (.func n a T l) (c!"fun" ++ (w₁ ++ (n.toList ++ (w₂ ++ (b ++ (w₃ ++ (':' :: (w₄ ++ (T.toList ++ tl)))))))))
  | cell (e : End) (n T : String) (a l : List String) (w₁ w₂ b w₃ w₄ tl : Tx) : IdTx U n.toList → IdTx U T.toList → Blank w₁ →
      Blank w₂ → WSorts U a b → Blank w₃ → Blank w₄ → WTail U true .name l tl e →
      WStm e (.cell n a T l) (c!"cell" ++ (w₁ ++ (n.toList ++ (w₂ ++ (b ++ (w₃ ++ (':' :: (w₄ ++ (T.toList ++ tl)))))))))
  | step0 (o₁ o₂ : Bool) (n : String) (v : List Bnd) (c m : Tm) (w₁ w₂ b w₃ w₄ s₁ w₅ w₆ w₇ s₂ w₈ : Tx) : IdTx U n.toList →
      Blank w₁ → Blank w₂ → WBnds U v b → Blank w₃ → Blank w₄ → WTm U o₁ c s₁ → Blank w₅ → Blank w₆ → Blank w₇ →
      WTm U o₂ m s₂ → Blank w₈ → WStm .closed (.step n v c m none [])
        (c!"step" ++ (w₁ ++ (n.toList ++ (w₂ ++ (b ++ (w₃ ++ ('{' :: (w₄ ++ (s₁ ++ (w₅ ++ ('}' :: (w₆ ++ ('{' :: (w₇ ++
          (s₂ ++ (w₈ ++ ['}']))))))))))))))))
  | step (e : End) (o₁ o₂ : Bool) (n : String) (v : List Bnd) (c m : Tm) (as : List Asg) (l : List String)
      (w₁ w₂ b w₃ w₄ s₁ w₅ w₆ w₇ s₂ w₈ w₉ w₁₀ s₃ tl : Tx) : IdTx U n.toList →
      Blank w₁ → Blank w₂ → WBnds U v b → Blank w₃ → Blank w₄ → WTm U o₁ c s₁ → Blank w₅ → Blank w₆ → Blank w₇ →
      WTm U o₂ m s₂ → Blank w₈ → Blank w₉ → Blank w₁₀ → Items (WAsg U) as s₃ → WTail U true .closed l tl e →
      WStm e (.step n v c m (some as) l)
        (c!"step" ++ (w₁ ++ (n.toList ++ (w₂ ++ (b ++ (w₃ ++ ('{' :: (w₄ ++ (s₁ ++ (w₅ ++ ('}' :: (w₆ ++ ('{' :: (w₇ ++
          (s₂ ++ (w₈ ++ ('}' :: (w₉ ++ ('{' :: (w₁₀ ++ (s₃ ++ ('}' :: tl))))))))))))))))))))))
  | order (e : End) (o : Bool) (k : AQ) (v : List Bnd) (g : Option Tm) (t₁ t₂ : Tm) (op : OrderOp) (l : List String)
      (q w₁ w₂ b w₃ w₄ s w₅ tl : Tx) : WQ k q → Blank w₁ → Blank w₂ → WBnds U v b → Blank w₃ → Blank w₄ →
      WOrder U o g t₁ op t₂ s → Blank w₅ → WTail U true .closed l tl e →
      WStm e (.order k v g t₁ op t₂ l)
        (c!"order" ++ (w₁ ++ (q ++ (w₂ ++ (b ++ (w₃ ++ ('{' :: (w₄ ++ (s ++ (w₅ ++ ('}' :: tl)))))))))))
  | order' (e : End) (o : Bool) (k : AQ) (v : List Bnd) (g : Option Tm) (t₁ t₂ : Tm) (op : OrderOp) (l : List String)
      (q w₁ w₂ b w₃ s tl : Tx) : WQ k q → Blank w₁ → Blank w₂ → WBnds U v b → Blank w₃ → (b = [] → hd s ≠ '(') →
      WOrder U o g t₁ op t₂ s → WTail U (!o) (.of o) l tl e →
      WStm e (.order k v g t₁ op t₂ l) (c!"order" ++ (w₁ ++ (q ++ (w₂ ++ (b ++ (w₃ ++ (s ++ tl)))))))
  | crypto (e : End) (n : String) (f l : List String) (w s tl : Tx) : IdTx U n.toList → Blank w → WFns U f s →
      WTail U true .semi l tl e → WStm e (.crypto n f l) (c!"assert-crypto" ++ (w ++ (n.toList ++ (s ++ tl))))
  | assert (e : End) (o : Bool) (k : AKind) (t : Tm) (l : List String) (w s tl : Tx) : Blank w → WTm U o t s →
      WTail U (!o) (.of o) l tl e → WStm e (.assert k t l) (k.kw ++ (w ++ (s ++ tl)))
  | mac (e : End) (o : Bool) (n : String) (v : List Bnd) (t : Tm) (l : List String) (w₁ w₂ b w₃ w₄ s tl : Tx) : IdTx U n.toList →
      Blank w₁ → Blank w₂ → WBnds U v b → Blank w₃ → Blank w₄ → WTm U o t s → WTail U (!o) (.of o) l tl e →
      WStm e (.mac n v t l) (c!"let" ++ (w₁ ++ (n.toList ++ ('!' :: (w₂ ++ (b ++ (w₃ ++ ('=' :: (w₄ ++ (s ++ tl))))))))))

/-- SPECIFICATION. Statements one after the other, each with or without a `;`. -/
inductive WStms : List Stm → Tx → Prop
  | one (e : End) (a : Stm) (s w : Tx) : WStm U e a s → Blank w → WStms [a] (s ++ w)
  | one' (e : End) (a : Stm) (s w w' : Tx) : WStm U e a s → Blank w → Blank w' → WStms [a] (s ++ (w ++ (';' :: w')))
  | cons (e : End) (a : Stm) (l : List Stm) (s w s' : Tx) : WStm U e a s → Blank w → (e = .name → w ≠ []) → e ≠ .semi →
      WStms l s' → WStms (a :: l) (s ++ (w ++ s'))
  | cons' (e : End) (a : Stm) (l : List Stm) (s w w' s' : Tx) : WStm U e a s → Blank w → Blank w' → WStms l s' →
      WStms (a :: l) (s ++ (w ++ (';' :: (w' ++ s'))))

/-- SPECIFICATION. How a file is written. -/
def WFile (l : List Stm) (s : Tx) : Prop := ∃ w s', Blank w ∧ WStms U l s' ∧ s = w ++ s'

end
end Txt2
end CV
