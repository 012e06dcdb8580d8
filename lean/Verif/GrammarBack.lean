import Verif.GrammarBugs
/-
The converse of the reading of Grammar.lean: what is read is what stands in the text.
-/
set_option linter.unusedSimpArgs false
set_option maxRecDepth 100000
set_option linter.unusedVariables false
set_option linter.unusedSectionVars false
namespace CV
namespace Txt2
open Prs (Out)

/-! ### What stands in a text -/

section
variable (U : Char → Bool)

/-- SPECIFICATION. What may stand after the only argument of `msg!` and `cond!`: blanks, possibly with a comma. -/
inductive Tl : Tx → Prop
  | none (w : Tx) : Blank w → Tl w
  | comma (w w' : Tx) : Blank w → Blank w' → Tl (w ++ (',' :: w'))

mutual
/-- SPECIFICATION. The text says this application: like `WAppl`, without the conditions that tell how the text is split. -/
inductive LAppl : Appl → Tx → Prop
  | const (x : String) (w : Tx) : VarTx U x.toList → Blank w → LAppl (.const x) (x.toList ++ w)
  | const0 (x : String) (o c : Char) (w w' : Tx) : VarTx U x.toList → Br o c → Blank w → Blank w' →
      LAppl (.const x) (x.toList ++ (w ++ (o :: (w' ++ [c]))))
  | app (f : String) (o c : Char) (a : Tm) (l : List Tm) (w w' s : Tx) : IdTx U f.toList → Br o c → Blank w → Blank w' →
      LArgs (a :: l) s → LAppl (.app f (a :: l)) (f.toList ++ (w ++ (o :: (w' ++ (s ++ [c])))))
/-- SPECIFICATION. The text says this term. -/
inductive LTm : Tm → Tx → Prop
  | appl (a : Appl) (s : Tx) : LAppl a s → LTm a.tm s
  | letin (v : Bnd) (t₁ t₂ : Tm) (w₁ b w₂ w₃ s₁ w₄ w₅ s₂ : Tx) : Blank w₁ → WBnd U v b → Blank w₂ → Blank w₃ →
      LTm t₁ s₁ → Blank w₄ → Blank w₅ → LTm t₂ s₂ →
      LTm (.letin v t₁ t₂) (c!"let" ++ (w₁ ++ (b ++ (w₂ ++ (c!"=" ++ (w₃ ++ (s₁ ++ (w₄ ++ (c!"in" ++ (w₅ ++ s₂))))))))))
  | ite (c l r : Tm) (w₁ s₁ w₂ s₂ w₃ w₄ s₃ : Tx) : Blank w₁ → LTm c s₁ → Blank w₂ → LBr l s₂ → Blank w₃ → Blank w₄ → LBr r s₃ →
      LTm (.ite c l r) (c!"if" ++ (w₁ ++ (s₁ ++ (w₂ ++ (s₂ ++ (w₃ ++ (c!"else" ++ (w₄ ++ s₃))))))))
  | find (v : List Bnd) (c l r : Tm) (w₁ w₂ b w₃ w₄ w₅ s₁ w₆ w₇ s₂ w₈ w₉ s₃ : Tx) : Blank w₁ → Blank w₂ → WBnds U v b →
      Blank w₃ → Blank w₄ → Blank w₅ → LBr c s₁ → Blank w₆ → Blank w₇ → LBr l s₂ → Blank w₈ → Blank w₉ → LBr r s₃ →
      LTm (.find v c l r)
        (c!"try" ++ (w₁ ++ (c!"find" ++ (w₂ ++ (b ++ (w₃ ++ (c!"such" ++ (w₄ ++ (c!"that" ++ (w₅ ++ (s₁ ++ (w₆ ++ (c!"then" ++
          (w₇ ++ (s₂ ++ (w₈ ++ (c!"else" ++ (w₉ ++ s₃))))))))))))))))))
  | quant (k : AQ) (v : List Bnd) (t : Tm) (q w₁ b w₂ s : Tx) : WQ k q → Blank w₁ → WBnds U v b → Blank w₂ → LBr t s →
      LTm (.quant k v t) (q ++ (w₁ ++ (b ++ (w₂ ++ s))))
  | infx (op : Op) (t : Tm) (l : List Tm) (w₁ s₁ s : Tx) : Blank w₁ → LTm t s₁ → l ≠ [] → LInfix op l s →
      LTm (.infx op (t :: l)) (c!"(" ++ (w₁ ++ (s₁ ++ (s ++ c!")"))))
  | mac0 (m : String) (w : Tx) : IdTx U m.toList → m.toList ≠ c!"msg" → m.toList ≠ c!"cond" → Blank w →
      LTm (.mac m []) (m.toList ++ (c!"!" ++ w))
  | mac (m : String) (o c : Char) (l : List Tm) (w w' s : Tx) : IdTx U m.toList → m.toList ≠ c!"msg" → m.toList ≠ c!"cond" →
      Br o c → Blank w → Blank w' → LArgs l s → LTm (.mac m l) (m.toList ++ (c!"!" ++ (w ++ (o :: (w' ++ (s ++ [c]))))))
  | msg (bo bc : Char) (a : Appl) (w w₁ s tl : Tx) : Br bo bc → Blank w → Blank w₁ → LAppl a s → Tl tl →
      LTm (a.toTm .msg) (c!"msg!" ++ (w ++ (bo :: (w₁ ++ (s ++ (tl ++ [bc]))))))
  | cond (bo bc : Char) (a : Appl) (w w₁ s tl : Tx) : Br bo bc → Blank w → Blank w₁ → LAppl a s → Tl tl →
      LTm (a.toTm .cond) (c!"cond!" ++ (w ++ (bo :: (w₁ ++ (s ++ (tl ++ [bc]))))))
/-- SPECIFICATION. The text says this term between braces. -/
inductive LBr : Tm → Tx → Prop
  | mk (a : Tm) (w s w' : Tx) : Blank w → LTm a s → Blank w' → LBr a (c!"{" ++ (w ++ (s ++ (w' ++ c!"}"))))
/-- SPECIFICATION. The text says these terms, each after the operator. -/
inductive LInfix : Op → List Tm → Tx → Prop
  | nil (op : Op) (w : Tx) : Blank w → LInfix op [] w
  | cons (op : Op) (t : Tm) (l : List Tm) (w q w' s r : Tx) : Blank w → WOp op q → Blank w' → LTm t s → LInfix op l r →
      LInfix op (t :: l) (w ++ (q ++ (w' ++ (s ++ r))))
/-- SPECIFICATION. The text says these terms, separated by commas, possibly with one after the last. -/
inductive LArgs : List Tm → Tx → Prop
  | nil : LArgs [] []
  | one (a : Tm) (t w : Tx) : LTm a t → Blank w → LArgs [a] (t ++ w)
  | cons (a : Tm) (l : List Tm) (t w w' s : Tx) : LTm a t → Blank w → Blank w' → LArgs l s →
      LArgs (a :: l) (t ++ (w ++ (',' :: (w' ++ s))))
end

/-- SPECIFICATION. Names, with blanks between them. -/
inductive LIds : List String → Tx → Prop
  | nil : LIds [] []
  | cons (x : String) (l : List String) (s : Tx) : IdTx U x.toList → WFns U l s → LIds (x :: l) (x.toList ++ s)

/-- SPECIFICATION. The text says these options; it is empty or has square brackets. -/
inductive LOpts : List String → Tx → Prop
  | none : LOpts [] []
  | some (l : List String) (w s w' : Tx) : Blank w → LIds U l s → Blank w' → LOpts l (c!"[" ++ (w ++ (s ++ (w' ++ c!"]"))))

/-- SPECIFICATION. The text says this assignment. -/
inductive LAsg : Asg → Tx → Prop
  | mk (v : List Bnd) (c : Appl) (t : Tm) (b w s₁ w₁ w₂ s₂ : Tx) : WBnds U v b → Blank w → LAppl U c s₁ → Blank w₁ → Blank w₂ →
      LTm U t s₂ → LAsg ⟨some v, c, t⟩ (b ++ (w ++ (s₁ ++ (w₁ ++ (c!"<-" ++ (w₂ ++ s₂))))))

/-- SPECIFICATION. The text says these assignments; it is empty or has braces. -/
inductive LAsgs : Option (List Asg) → Tx → Prop
  | none : LAsgs none []
  | some (l : List Asg) (w s : Tx) : Blank w → Items (LAsg U) l s → LAsgs (some l) (c!"{" ++ (w ++ (s ++ c!"}")))

/-- SPECIFICATION. The text says this guard; it is empty or ends with `=>`. -/
inductive LGuard : Option Tm → Tx → Prop
  | none : LGuard none []
  | some (t : Tm) (s w : Tx) : LTm U t s → Blank w → LGuard (some t) (s ++ (w ++ c!"=>"))

/-- SPECIFICATION. The text says `[guard =>] t1 op t2`, possibly between braces. -/
inductive LOrder : Option Tm → Tm → OrderOp → Tm → Tx → Prop
  | mk (g : Option Tm) (t₁ t₂ : Tm) (op : OrderOp) (s₀ w₀ s₁ w₁ q w₂ s₂ : Tx) : LGuard U g s₀ → Blank w₀ → LTm U t₁ s₁ → Blank w₁ →
      WOrd op q → Blank w₂ → LTm U t₂ s₂ → LOrder g t₁ op t₂ (s₀ ++ (w₀ ++ (s₁ ++ (w₁ ++ (q ++ (w₂ ++ s₂))))))
  | br (g : Option Tm) (t₁ t₂ : Tm) (op : OrderOp) (w s w' : Tx) : Blank w → LOrder g t₁ op t₂ s → Blank w' →
      LOrder g t₁ op t₂ (c!"{" ++ (w ++ (s ++ (w' ++ c!"}"))))

/-- SPECIFICATION. The text says this statement. -/
inductive LStm : Stm → Tx → Prop
  | type (n : String) (l : List String) (w w' tl : Tx) : IdTx U n.toList → Blank w → Blank w' → LOpts U l tl →
      LStm (.type n l) (c!"type" ++ (w ++ (n.toList ++ (w' ++ tl))))
  | func (n T : String) (a l : List String) (w₁ w₂ b w₃ w₄ w₅ tl : Tx) : IdTx U n.toList → IdTx U T.toList → Blank w₁ →
      Blank w₂ → WSorts U a b → Blank w₃ → Blank w₄ → Blank w₅ → LOpts U l tl →
      LStm (.func n a T l) (c!"fun" ++ (w₁ ++ (n.toList ++ (w₂ ++ (b ++ (w₃ ++ (c!":" ++ (w₄ ++ (T.toList ++ (w₅ ++ tl))))))))))
  | cell (n T : String) (a l : List String) (w₁ w₂ b w₃ w₄ w₅ tl : Tx) : IdTx U n.toList → IdTx U T.toList → Blank w₁ →
      Blank w₂ → WSorts U a b → Blank w₃ → Blank w₄ → Blank w₅ → LOpts U l tl →
      LStm (.cell n a T l) (c!"cell" ++ (w₁ ++ (n.toList ++ (w₂ ++ (b ++ (w₃ ++ (c!":" ++ (w₄ ++ (T.toList ++ (w₅ ++ tl))))))))))
  | step (n : String) (v : List Bnd) (c m : Tm) (as : Option (List Asg)) (l : List String)
      (w₁ w₂ b w₃ s₁ w₄ s₂ w₅ s₃ w₆ s₄ : Tx) : IdTx U n.toList → Blank w₁ → Blank w₂ → WBnds U v b → Blank w₃ → LBr U c s₁ →
      Blank w₄ → LBr U m s₂ → Blank w₅ → LAsgs U as s₃ → Blank w₆ → LOpts U l s₄ → (as = none → l = []) →
      LStm (.step n v c m as l)
        (c!"step" ++ (w₁ ++ (n.toList ++ (w₂ ++ (b ++ (w₃ ++ (s₁ ++ (w₄ ++ (s₂ ++ (w₅ ++ (s₃ ++ (w₆ ++ s₄))))))))))))
  | order (k : AQ) (v : List Bnd) (g : Option Tm) (t₁ t₂ : Tm) (op : OrderOp) (l : List String) (w₁ q w₂ b w₃ s w₄ tl : Tx) :
      Blank w₁ → WQ k q → Blank w₂ → WBnds U v b → Blank w₃ → LOrder U g t₁ op t₂ s → Blank w₄ → LOpts U l tl →
      LStm (.order k v g t₁ op t₂ l) (c!"order" ++ (w₁ ++ (q ++ (w₂ ++ (b ++ (w₃ ++ (s ++ (w₄ ++ tl))))))))
  | crypto (n : String) (f l : List String) (w s w' tl : Tx) : IdTx U n.toList → Blank w → WFns U f s → Blank w' →
      LOpts U l tl → LStm (.crypto n f l) (c!"assert-crypto" ++ (w ++ (n.toList ++ (s ++ (w' ++ tl)))))
  | assert (k : AKind) (t : Tm) (l : List String) (w s w' tl : Tx) : Blank w → LTm U t s → Blank w' → LOpts U l tl →
      LStm (.assert k t l) (k.kw ++ (w ++ (s ++ (w' ++ tl))))
  | mac (n : String) (v : List Bnd) (t : Tm) (l : List String) (w₁ w₂ b w₃ w₄ s w₅ tl : Tx) : IdTx U n.toList → Blank w₁ →
      Blank w₂ → WBnds U v b → Blank w₃ → Blank w₄ → LTm U t s → Blank w₅ → LOpts U l tl →
      LStm (.mac n v t l)
        (c!"let" ++ (w₁ ++ (n.toList ++ (c!"!" ++ (w₂ ++ (b ++ (w₃ ++ (c!"=" ++ (w₄ ++ (s ++ (w₅ ++ tl)))))))))))

/-- SPECIFICATION. The text says these statements, one after the other, each with or without a `;`. -/
inductive LStms : List Stm → Tx → Prop
  | nil (w : Tx) : Blank w → LStms [] w
  | cons (a : Stm) (l : List Stm) (w s w' sc r : Tx) : Blank w → LStm U a s → Blank w' → sc = [] ∨ sc = c!";" → LStms l r →
      LStms (a :: l) (w ++ (s ++ (w' ++ (sc ++ r))))
end

/-! ### Derivations with what follows -/

/-- The expression derives the text before the remaining one, leaving these pairs. -/
inductive Der (U : Char → Bool) : G → Tx → Tx → List Pair → Prop
  | lit (s t : Tx) : Der U (.lit s) s t []
  | chr (p : Char → Bool) (c : Char) (t : Tx) : p c = true → Der U (.chr p) [c] t []
  | seq {a b : G} {s s' t : Tx} {p q : List Pair} : Der U a s (s' ++ t) p → Der U b s' t q → Der U (.seq a b) (s ++ s') t (p ++ q)
  | alt1 {a b : G} {s t : Tx} {p : List Pair} : Der U a s t p → Der U (.alt a b) s t p
  | alt2 {a b : G} {s t : Tx} {p : List Pair} : No (gram U) a (s ++ t) → Der U b s t p → Der U (.alt a b) s t p
  | star0 {a : G} {t : Tx} : No (gram U) a t → Der U (.star a) [] t []
  | star1 {a : G} {s s' t : Tx} {p q : List Pair} : Der U a s (s' ++ t) p → Der U (.star a) s' t q →
      Der U (.star a) (s ++ s') t (p ++ q)
  | opt0 {a : G} {t : Tx} : Der U (.opt a) [] t []
  | opt1 {a : G} {s t : Tx} {p : List Pair} : Der U a s t p → Der U (.opt a) s t p
  | neg {a : G} {t : Tx} : No (gram U) a t → Der U (.neg a) [] t []
  | call {r : Rule} {s t : Tx} {p : List Pair} : Der U (gram U r) s t p → Der U (.call r) s t [.node r s p]

section
variable {U : Char → Bool}

theorem run_der : ∀ (n : Nat) {e : G} {t t' : Tx} {p}, run (gram U) n e t = some (some (p, t')) →
    ∃ s, t = s ++ t' ∧ Der U e s t' p := by
  intro n
  induction n with
  | zero => intro e t t' p h; simp [run] at h
  | succ n ih =>
    intro e t t' p h
    cases e with
    | lit s =>
      simp only [run] at h
      split at h
      · rename_i hs
        obtain ⟨u, rfl⟩ := List.isPrefixOf_iff_prefix.1 hs
        cases h
        exact ⟨s, by simp, .lit s _⟩
      · cases h
    | chr q =>
      cases t with
      | nil => simp [run] at h
      | cons c t =>
        simp only [run] at h
        split at h
        · rename_i hc
          cases h
          exact ⟨[c], rfl, .chr q c _ hc⟩
        · cases h
    | seq a b =>
      simp only [run] at h
      split at h
      · cases h
      · cases h
      · rename_i q u hq
        split at h
        · cases h
        · cases h
        · rename_i q' u' hq'
          cases h
          obtain ⟨s₁, rfl, h₁⟩ := ih hq
          obtain ⟨s₂, rfl, h₂⟩ := ih hq'
          exact ⟨s₁ ++ s₂, by simp, .seq h₁ h₂⟩
    | alt a b =>
      simp only [run] at h
      split at h
      · cases h
      · rename_i hn
        obtain ⟨s, rfl, h'⟩ := ih h
        exact ⟨s, rfl, .alt2 ⟨n, hn⟩ h'⟩
      · rename_i hq
        cases h
        obtain ⟨s, e, h⟩ := ih hq
        exact ⟨s, e, .alt1 h⟩
    | star a =>
      simp only [run] at h
      split at h
      · cases h
      · rename_i hn; cases h; exact ⟨[], rfl, .star0 ⟨n, hn⟩⟩
      · rename_i q u hq
        split at h
        · cases h
        · cases h
        · rename_i q' u' hq'
          cases h
          obtain ⟨s₁, rfl, h₁⟩ := ih hq
          obtain ⟨s₂, rfl, h₂⟩ := ih hq'
          exact ⟨s₁ ++ s₂, by simp, .star1 h₁ h₂⟩
    | opt a =>
      simp only [run] at h
      split at h
      · cases h
      · cases h; exact ⟨[], rfl, .opt0⟩
      · rename_i hq
        cases h
        obtain ⟨s, e, h⟩ := ih hq
        exact ⟨s, e, .opt1 h⟩
    | neg a =>
      simp only [run] at h
      split at h
      · cases h
      · rename_i hn; cases h; exact ⟨[], rfl, .neg ⟨n, hn⟩⟩
      · cases h
    | call r =>
      simp only [run] at h
      split at h
      · cases h
      · cases h
      · rename_i hq
        cases h
        obtain ⟨s, rfl, h⟩ := ih hq
        refine ⟨s, rfl, ?_⟩
        have : (s ++ t').take ((s ++ t').length - t'.length) = s := by simp
        rw [this]
        exact .call h

/-! ### Blanks -/

theorem no_lit_inv {k t : Tx} (h : No (gram U) (.lit k) t) : k.isPrefixOf t = false := by
  obtain ⟨n, h⟩ := h
  cases n with
  | zero => simp [run] at h
  | succ n =>
    simp only [run] at h
    split at h
    · cases h
    · rename_i h'; simpa only [Bool.not_eq_true] using h'

theorem der_ws {s t : Tx} {p : List Pair} (h : Der U (.star (.chr isWs)) s t p) : p = [] ∧ ∀ w, Blank w → Blank (s ++ w) := by
  generalize hg : G.star (.chr isWs) = g at h
  induction h with
  | star0 => exact ⟨rfl, fun w h => h⟩
  | star1 h₁ _ _ ih =>
    cases hg
    obtain ⟨rfl, h⟩ := ih rfl
    cases h₁ with
    | chr _ c _ hc => exact ⟨rfl, fun w hw => .ws c _ hc (h w hw)⟩
  | _ => cases hg

theorem der_body {a b : Char} {s t u : Tx} {p : List Pair}
    (h : Der U (.star (.seq (.neg (.lit [a, b])) (.chr fun _ => true))) s t p) (ht : t = [a, b] ++ u) : p = [] ∧ Inside [a, b] s := by
  generalize hg : G.star (.seq (.neg (.lit [a, b])) (.chr fun _ => true)) = g at h
  induction h with
  | star0 => exact ⟨rfl, trivial⟩
  | @star1 _ s s' t p q h₁ _ _ ih =>
    cases hg
    obtain ⟨rfl, h⟩ := ih ht rfl
    cases h₁ with
    | seq h₁ h₂ =>
      cases h₁ with
      | neg hn =>
        cases h₂ with
        | chr _ c _ _ =>
          refine ⟨rfl, ?_, h⟩
          have := no_lit_inv hn
          subst ht
          cases s' with
          | nil => simpa [List.isPrefixOf] using this
          | cons d s' => simpa [List.isPrefixOf] using this
  | _ => cases hg

theorem der_comment {o₁ o₂ a b : Char} {s t : Tx} {p : List Pair} (h : Der U (comment [o₁, o₂] [a, b]) s t p) :
    p = [] ∧ ∃ x, Inside [a, b] x ∧ s = [o₁, o₂] ++ (x ++ [a, b]) := by
  cases h with
  | seq h₁ h₂ =>
    cases h₁
    cases h₂ with
    | seq h₂ h₃ =>
      cases h₃
      obtain ⟨rfl, h⟩ := der_body h₂ rfl
      exact ⟨rfl, _, h, rfl⟩

theorem der_skip {s t : Tx} {p : List Pair} (h : Der U skipG s t p) : p = [] ∧ Blank s := by
  cases h with
  | seq h₁ h₂ =>
    obtain ⟨rfl, h₁'⟩ := der_ws h₁
    have key : ∀ {s t : Tx} {p : List Pair}, Der U (.star (.seq commentG (.star (.chr isWs)))) s t p → p = [] ∧ Blank s := by
      intro s t p h
      generalize hg : G.star (.seq commentG (.star (.chr isWs))) = g at h
      induction h with
      | star0 => exact ⟨rfl, .nil⟩
      | star1 h₁ _ _ ih =>
        cases hg
        obtain ⟨rfl, hw⟩ := ih rfl
        cases h₁ with
        | seq h₁ h₂ =>
          obtain ⟨rfl, h₂'⟩ := der_ws h₂
          cases h₁ with
          | alt1 h₁ =>
            obtain ⟨rfl, x, hx, rfl⟩ := der_comment h₁
            refine ⟨rfl, ?_⟩
            have := Blank.c x _ hx (h₂' _ hw)
            simpa using this
          | alt2 _ h₁ =>
            obtain ⟨rfl, x, hx, rfl⟩ := der_comment h₁
            refine ⟨rfl, ?_⟩
            have := Blank.ml x _ hx (h₂' _ hw)
            simpa using this
      | _ => cases hg
    obtain ⟨rfl, h⟩ := key h₂
    exact ⟨rfl, h₁' _ h⟩

/-! ### Inversion -/

variable {P : Pair → Prop}

/-- The expression derives the text, leaving these pairs, which all have the property. -/
def D (U : Char → Bool) (P : Pair → Prop) (e : G) (s : Tx) (p : List Pair) : Prop := (∃ t, Der U e s t p) ∧ ∀ k ∈ p, Every P k

theorem D.lit {k s : Tx} {p : List Pair} (h : D U P (.lit k) s p) : s = k ∧ p = [] := by
  obtain ⟨⟨t, h⟩, _⟩ := h; cases h; exact ⟨rfl, rfl⟩
theorem D.seq {a b : G} {s : Tx} {p : List Pair} (h : D U P (.seq a b) s p) :
    ∃ s₁ s₂ p₁ p₂, s = s₁ ++ s₂ ∧ p = p₁ ++ p₂ ∧ D U P a s₁ p₁ ∧ D U P b s₂ p₂ := by
  obtain ⟨⟨t, h⟩, c⟩ := h
  cases h with
  | seq h₁ h₂ => exact ⟨_, _, _, _, rfl, rfl, ⟨⟨_, h₁⟩, fun k hk => c k (by simp [hk])⟩, ⟨_, h₂⟩, fun k hk => c k (by simp [hk])⟩
theorem D.alt {a b : G} {s : Tx} {p : List Pair} (h : D U P (.alt a b) s p) : D U P a s p ∨ D U P b s p := by
  obtain ⟨⟨t, h⟩, c⟩ := h
  cases h with
  | alt1 h => exact .inl ⟨⟨_, h⟩, c⟩
  | alt2 _ h => exact .inr ⟨⟨_, h⟩, c⟩
theorem D.opt {a : G} {s : Tx} {p : List Pair} (h : D U P (.opt a) s p) : s = [] ∧ p = [] ∨ D U P a s p := by
  obtain ⟨⟨t, h⟩, c⟩ := h
  cases h with
  | opt0 => exact .inl ⟨rfl, rfl⟩
  | opt1 h => exact .inr ⟨⟨_, h⟩, c⟩
theorem D.call {r : Rule} {s : Tx} {p : List Pair} (h : D U P (.call r) s p) :
    ∃ ks, p = [.node r s ks] ∧ D U P (gram U r) s ks ∧ P (.node r s ks) := by
  obtain ⟨⟨t, h⟩, c⟩ := h
  cases h with
  | call h =>
    have hc := c _ (List.mem_singleton.2 rfl)
    cases hc with
    | node _ _ _ h₁ h₂ => exact ⟨_, rfl, ⟨⟨_, h⟩, h₂⟩, h₁⟩
theorem D.skip {s : Tx} {p : List Pair} (h : D U P skipG s p) : p = [] ∧ Blank s := by
  obtain ⟨⟨t, h⟩, _⟩ := h; exact der_skip h
theorem D.then {a b : G} {s : Tx} {p : List Pair} (h : D U P (a ~~ b) s p) :
    ∃ s₁ w s₂ p₁ p₂, s = s₁ ++ (w ++ s₂) ∧ Blank w ∧ p = p₁ ++ p₂ ∧ D U P a s₁ p₁ ∧ D U P b s₂ p₂ := by
  obtain ⟨s₁, s₂, p₁, p₂, rfl, rfl, h₁, h₂⟩ := h.seq
  obtain ⟨s₂, s₃, p₂, p₃, rfl, rfl, h₂, h₃⟩ := h₂.seq
  obtain ⟨rfl, hw⟩ := h₂.skip
  exact ⟨s₁, s₂, s₃, p₁, p₃, rfl, hw, by simp, h₁, h₃⟩
theorem D.lit_then {k s : Tx} {b : G} {p : List Pair} (h : D U P (.lit k ~~ b) s p) :
    ∃ w s₂, s = k ++ (w ++ s₂) ∧ Blank w ∧ D U P b s₂ p := by
  obtain ⟨s₁, w, s₂, p₁, p₂, rfl, hw, rfl, h₁, h₂⟩ := h.then
  obtain ⟨rfl, rfl⟩ := h₁.lit
  exact ⟨w, s₂, rfl, hw, h₂⟩
theorem D.then_lit {k s : Tx} {a : G} {p : List Pair} (h : D U P (a ~~ .lit k) s p) :
    ∃ s₁ w, s = s₁ ++ (w ++ k) ∧ Blank w ∧ D U P a s₁ p := by
  obtain ⟨s₁, w, s₂, p₁, p₂, rfl, hw, rfl, h₁, h₂⟩ := h.then
  obtain ⟨rfl, rfl⟩ := h₂.lit
  exact ⟨s₁, w, rfl, hw, by rw [List.append_nil]; exact h₁⟩
theorem D.star {a : G} {s : Tx} {p : List Pair} (h : D U P (.star a) s p) : ∃ L : List (Tx × List Pair),
    s = (L.map Prod.fst).flatten ∧ p = (L.map Prod.snd).flatten ∧ ∀ x ∈ L, D U P a x.1 x.2 := by
  obtain ⟨⟨t, h⟩, c⟩ := h
  generalize hg : G.star a = g at h
  induction h with
  | star0 => exact ⟨[], rfl, rfl, by simp⟩
  | star1 h₁ h₂ _ ih =>
    cases hg
    obtain ⟨L, e, e', hL⟩ := ih (fun k hk => c k (by simp [hk])) rfl
    subst e e'
    refine ⟨(_, _) :: L, rfl, rfl, fun x hx => ?_⟩
    rcases List.mem_cons.1 hx with rfl | hx
    · exact ⟨⟨_, h₁⟩, fun k hk => c k (by simp [hk])⟩
    · exact hL x hx
  | _ => cases hg

/-! ### Lists -/

/-- SPECIFICATION. One pair for each element, with its text. -/
abbrev PItems (U : Char → Bool) (P : Pair → Prop) (r : Rule) : List Pair → Tx → Prop := Items fun p s => D U P (.call r) s [p]

theorem D.many {a : G} {s : Tx} {p : List Pair} (h : D U P (many a) s p) : ∃ L : List ((Tx × Tx) × List Pair),
    s = (L.map fun x => x.1.1 ++ x.1.2).flatten ∧ p = (L.map Prod.snd).flatten ∧
    ∀ x ∈ L, Blank x.1.1 ∧ D U P a x.1.2 x.2 := by
  rcases h.opt with ⟨rfl, rfl⟩ | h
  · exact ⟨[], rfl, rfl, by simp⟩
  · obtain ⟨s₁, s₂, p₁, p₂, rfl, rfl, h₁, h₂⟩ := h.seq
    obtain ⟨L, rfl, rfl, hL⟩ := h₂.star
    have : ∃ M : List ((Tx × Tx) × List Pair), (L.map Prod.fst).flatten = (M.map fun x => x.1.1 ++ x.1.2).flatten ∧
        (L.map Prod.snd).flatten = (M.map Prod.snd).flatten ∧ ∀ x ∈ M, Blank x.1.1 ∧ D U P a x.1.2 x.2 := by
      clear h₂
      clear * - hL
      induction L with
      | nil => exact ⟨[], rfl, rfl, by simp⟩
      | cons x L ih =>
        obtain ⟨M, e, e', hM⟩ := ih fun y hy => hL y (List.mem_cons_of_mem _ hy)
        obtain ⟨u, v, q, q', e₁, e₂, hu, hv⟩ := (hL x List.mem_cons_self).seq
        obtain ⟨rfl, hw⟩ := hu.skip
        refine ⟨((u, v), q') :: M, ?_, ?_, fun y hy => ?_⟩
        · simp only [List.map_cons, List.flatten_cons, e, e₁]
        · simp only [List.map_cons, List.flatten_cons, e', e₂, List.nil_append]
        · rcases List.mem_cons.1 hy with rfl | hy
          · exact ⟨hw, hv⟩
          · exact hM y hy
    obtain ⟨M, e, e', hM⟩ := this
    refine ⟨(([], s₁), p₁) :: M, by simp [e], by simp [e'], fun x hx => ?_⟩
    rcases List.mem_cons.1 hx with rfl | hx
    · exact ⟨.nil, h₁⟩
    · exact hM x hx

theorem D.listOf {o c : Tx} {r : Rule} {s : Tx} {p : List Pair} (h : D U P (listOf o (.call r) c) s p) :
    ∃ w s', s = o ++ (w ++ (s' ++ c)) ∧ Blank w ∧ PItems U P r p s' := by
  obtain ⟨w, s, rfl, hw, h⟩ := h.lit_then
  obtain ⟨s, w₂, rfl, hw₂, h⟩ := h.then_lit
  obtain ⟨s₁, w₁, s₂, p₁, p₂, rfl, hw₁, rfl, h₁, h₂⟩ := h.then
  have tail : ∃ v s', w₁ ++ (s₂ ++ w₂) = v ++ s' ∧ Blank v ∧ PItems U P r p₂ s' := by
    rcases h₂.opt with ⟨rfl, rfl⟩ | h₂
    · exact ⟨w₁ ++ w₂, [], by simp, hw₁.append hw₂, .nil⟩
    · obtain ⟨ks, rfl, _⟩ := h₂.call
      exact ⟨w₁, s₂ ++ w₂, rfl, hw₁, .one _ _ _ h₂ hw₂⟩
  obtain ⟨v, s', e, hv, hI⟩ := tail
  obtain ⟨L, hs, rfl, hL⟩ := h₁.many
  have key : ∀ (L : List ((Tx × Tx) × List Pair)), (∀ x ∈ L, Blank x.1.1 ∧ D U P (.call r ~~ .lit c!",") x.1.2 x.2) →
      ∃ v' s'', (L.map fun x => x.1.1 ++ x.1.2).flatten ++ (v ++ s') = v' ++ s'' ∧ Blank v' ∧
        PItems U P r ((L.map Prod.snd).flatten ++ p₂) s'' := by
    intro L
    induction L with
    | nil => exact fun _ => ⟨v, s', rfl, hv, hI⟩
    | cons x L ih =>
      intro hL
      obtain ⟨v', s'', e, hv', hI'⟩ := ih fun y hy => hL y (List.mem_cons_of_mem _ hy)
      obtain ⟨hb, hx⟩ := hL x List.mem_cons_self
      obtain ⟨t, u, ht, hu, hx⟩ := hx.then_lit
      obtain ⟨ks, hk, _⟩ := hx.call
      refine ⟨x.1.1, t ++ (u ++ (',' :: (v' ++ s''))), ?_, hb, ?_⟩
      · simp only [List.map_cons, List.flatten_cons, List.append_assoc, e, ht, List.cons_append, List.nil_append]
      · rw [List.map_cons, List.flatten_cons, hk]
        rw [hk] at hx
        exact .cons _ _ t u v' s'' hx hu hv' hI'
  obtain ⟨v', s'', e', hv', hI'⟩ := key L hL
  refine ⟨w ++ v', s'', ?_, hw.append hv', hI'⟩
  rw [hs]
  simp only [List.append_assoc]
  rw [← List.append_assoc v', ← e', ← e]
  simp only [List.append_assoc]

/-! ### Names -/

theorem bind_ok {α β : Type} {o : Out α} {f : α → Out β} {b : β} (h : o.bind f = .ok b) : ∃ a, o = .ok a ∧ f a = .ok b := by
  cases o with
  | ok a => exact ⟨a, rfl, h⟩
  | _ => cases h

theorem chk_ok {α : Type} {p : Pair} {rs : List Rule} {k : Out α} {a : α} (h : chk true p rs k = .ok a) :
    rs.contains p.rule = true ∧ k = .ok a := by
  simp only [chk, Bool.true_and] at h
  split at h
  · cases h
  · rename_i h'; exact ⟨by simpa using h', h⟩

theorem der_idc {s t : Tx} {p : List Pair} (h : Der U (.star (.chr (idc U))) s t p) :
    p = [] ∧ (∀ d ∈ s, NameC U d = true) ∧ No (gram U) (.chr (idc U)) t := by
  generalize hg : G.star (.chr (idc U)) = g at h
  induction h with
  | star0 hn => cases hg; exact ⟨rfl, by simp, hn⟩
  | star1 h₁ _ _ ih =>
    cases hg
    obtain ⟨rfl, h, hn⟩ := ih rfl
    cases h₁ with
    | chr _ c _ hc =>
      refine ⟨rfl, fun d hd => ?_, hn⟩
      rcases List.mem_cons.1 hd with rfl | hd
      · exact hc
      · exact h d hd
  | _ => cases hg

theorem der_ident {s t : Tx} {p : List Pair} (h : Der U (.call .ident) s t p) :
    p = [.node .ident s []] ∧ IdTx U s ∧ No (gram U) (.chr (idc U)) t := by
  cases h with
  | call h =>
    cases h with
    | seq h₁ h₂ =>
      cases h₁ with
      | chr _ c _ hc =>
        obtain ⟨rfl, h, hn⟩ := der_idc h₂
        exact ⟨rfl, ⟨c, _, rfl, hc, h⟩, hn⟩

theorem D.ident {s : Tx} {p : List Pair} (h : D U P (.call .ident) s p) : p = [.node .ident s []] ∧ IdTx U s := by
  obtain ⟨⟨t, h⟩, _⟩ := h
  exact ⟨(der_ident h).1, (der_ident h).2.1⟩

theorem D.name {r : Rule} {s : Tx} {p : List Pair} (h : D U P (.call r) s p) (hr : gram U r = .call .ident) :
    p = [.node r s [.node .ident s []]] ∧ IdTx U s := by
  obtain ⟨ks, rfl, h, _⟩ := h.call
  rw [hr] at h
  obtain ⟨rfl, h'⟩ := h.ident
  exact ⟨rfl, h'⟩

theorem D.var {s : Tx} {p : List Pair} (h : D U P (.call .variable) s p) : ∃ ks, p = [.node .variable s ks] ∧ VarTx U s := by
  obtain ⟨ks, rfl, h, _⟩ := h.call
  refine ⟨ks, rfl, ?_⟩
  obtain ⟨s₁, s₂, p₁, p₂, rfl, rfl, h₁, h₂⟩ := D.seq h
  obtain ⟨rfl, h₂'⟩ := h₂.ident
  rcases h₁.opt with ⟨rfl, rfl⟩ | h₁
  · exact .inl h₂'
  · obtain ⟨ks, rfl, h₁, _⟩ := h₁.call
    obtain ⟨rfl, rfl⟩ := D.lit h₁
    exact .inr ⟨s₂, rfl, h₂'⟩

theorem D.mname {s : Tx} {p : List Pair} (h : D U P (.call .macro_name) s p) :
    ∃ m, s = m ++ c!"!" ∧ IdTx U m ∧ p = [.node .macro_name s [.node .ident m []]] := by
  obtain ⟨ks, rfl, h, _⟩ := h.call
  obtain ⟨s₁, s₂, p₁, p₂, rfl, rfl, h₁, h₂⟩ := D.seq h
  obtain ⟨rfl, h₁'⟩ := h₁.ident
  obtain ⟨rfl, rfl⟩ := h₂.lit
  exact ⟨s₁, rfl, h₁', rfl⟩

theorem D.bnd {s : Tx} {p : List Pair} (h : D U P (.call .variable_binding) s p) :
    ∃ x v, p = [x] ∧ cBnd true x = .ok v ∧ WBnd U v s := by
  obtain ⟨ks, rfl, h, _⟩ := h.call
  obtain ⟨s₁, w, s₂, p₁, p₂, rfl, hw, rfl, h₁, h₂⟩ := D.then h
  obtain ⟨w', s₃, rfl, hw', h₂⟩ := h₂.lit_then
  obtain ⟨ks, rfl, h₁'⟩ := h₁.var
  obtain ⟨rfl, h₂'⟩ := h₂.name rfl
  refine ⟨_, (String.ofList s₁, String.ofList s₃), rfl, rfl, ?_⟩
  have := WBnd.mk (U := U) (String.ofList s₁) (String.ofList s₃) w w' (by simpa using h₁') (by simpa using h₂') hw hw'
  simpa using this

theorem items_all {α : Type} {W : Pair → Tx → Prop} {V : α → Tx → Prop} {f : Pair → Out α} {ps : List Pair} {s : Tx}
    (hI : Items W ps s) (hf : ∀ p s, W p s → ∃ a, f p = .ok a ∧ V a s) : ∃ l, cAll f ps = .ok l ∧ Items V l s := by
  induction hI with
  | nil => exact ⟨[], rfl, .nil⟩
  | one p t w h hw =>
    obtain ⟨a, e, h⟩ := hf p t h
    exact ⟨[a], by simp [cAll, e, Out.bind], .one a t w h hw⟩
  | cons p ps t w w' s h hw hw' _ ih =>
    obtain ⟨a, e, h⟩ := hf p t h
    obtain ⟨l, e', hl⟩ := ih
    exact ⟨a :: l, by simp [cAll, e, e', Out.bind], .cons a l t w w' s h hw hw' hl⟩

theorem items_back {α : Type} {W : Pair → Tx → Prop} {V : α → Tx → Prop} {f : Pair → Out α} {ps : List Pair} {s : Tx}
    (hI : Items W ps s) (hf : ∀ p ∈ ps, ∀ s a, W p s → f p = .ok a → V a s) : ∀ l, cAll f ps = .ok l → Items V l s := by
  induction hI with
  | nil => intro l h; cases h; exact .nil
  | one p t w h hw =>
    intro l hl
    obtain ⟨a, e, hl⟩ := bind_ok hl
    cases hl
    exact .one a t w (hf p List.mem_cons_self t a h e) hw
  | cons p ps t w w' s h hw hw' _ ih =>
    intro l hl
    obtain ⟨a, e, hl⟩ := bind_ok hl
    obtain ⟨r, e', hl⟩ := bind_ok hl
    cases hl
    exact .cons a r t w w' s (hf p List.mem_cons_self t a h e) hw hw' (ih (fun q hq => hf q (List.mem_cons_of_mem _ hq)) r e')

theorem D.bnds {s : Tx} {p : List Pair} (h : D U P (.call .typed_arguments) s p) :
    ∃ x v, p = [x] ∧ cBnds true x = .ok v ∧ WBnds U v s := by
  obtain ⟨ks, rfl, h, _⟩ := h.call
  rcases D.opt h with ⟨rfl, rfl⟩ | h
  · exact ⟨_, [], rfl, rfl, .none⟩
  · obtain ⟨w, s', rfl, hw, hI⟩ := h.listOf
    obtain ⟨v, e, hv⟩ := items_all (f := cBnd true) (V := fun b t => WBnd U b t) hI fun p s h => by
      obtain ⟨x, v, e, h⟩ := h.bnd; cases e; exact ⟨v, h⟩
    exact ⟨_, v, rfl, e, .some v w s' hw hv⟩

theorem D.op {s : Tx} {p : List Pair} (h : D U P (.call .operation) s p) : ∃ x o, p = [x] ∧ cOp true x = .ok o ∧ WOp o s := by
  obtain ⟨ks, rfl, h, _⟩ := h.call
  simp only [gram, choice] at h
  rcases h.alt with h | h
  · obtain ⟨ks, rfl, h, _⟩ := h.call; obtain ⟨rfl, rfl⟩ := D.lit h; exact ⟨_, _, rfl, rfl, .eq⟩
  rcases h.alt with h | h
  · obtain ⟨ks, rfl, h, _⟩ := h.call
    rcases D.alt h with h | h
    · obtain ⟨rfl, rfl⟩ := D.lit h; exact ⟨_, _, rfl, rfl, .neq⟩
    · obtain ⟨rfl, rfl⟩ := D.lit h; exact ⟨_, _, rfl, rfl, .neq'⟩
  rcases h.alt with h | h
  · obtain ⟨ks, rfl, h, _⟩ := h.call; obtain ⟨rfl, rfl⟩ := D.lit h; exact ⟨_, _, rfl, rfl, .or⟩
  rcases h.alt with h | h
  · obtain ⟨ks, rfl, h, _⟩ := h.call; obtain ⟨rfl, rfl⟩ := D.lit h; exact ⟨_, _, rfl, rfl, .and⟩
  rcases h.alt with h | h
  · obtain ⟨ks, rfl, h, _⟩ := h.call; obtain ⟨rfl, rfl⟩ := D.lit h; exact ⟨_, _, rfl, rfl, .implies⟩
  · obtain ⟨ks, rfl, h, _⟩ := h.call; obtain ⟨rfl, rfl⟩ := D.lit h; exact ⟨_, _, rfl, rfl, .iff⟩

theorem D.q {s : Tx} {p : List Pair} (h : D U P (.call .quantifier_op) s p) : ∃ x o, p = [x] ∧ cQuant true x = .ok o ∧ WQ o s := by
  obtain ⟨ks, rfl, h, _⟩ := h.call
  rcases D.alt h with h | h <;> obtain ⟨ks, rfl, h, _⟩ := h.call <;> rcases D.alt h with h | h <;> obtain ⟨rfl, rfl⟩ := D.lit h
  · exact ⟨_, _, rfl, rfl, .ex⟩
  · exact ⟨_, _, rfl, rfl, .ex'⟩
  · exact ⟨_, _, rfl, rfl, .all⟩
  · exact ⟨_, _, rfl, rfl, .all'⟩

theorem D.ordop {s : Tx} {p : List Pair} (h : D U P (.call .ordering_operation) s p) :
    ∃ x o, p = [x] ∧ cOrdOp true x = .ok o ∧ WOrd o s := by
  obtain ⟨ks, rfl, h, _⟩ := h.call
  simp only [gram, choice] at h
  rcases h.alt with h | h
  · obtain ⟨ks, rfl, h, _⟩ := h.call; obtain ⟨rfl, rfl⟩ := D.lit h; exact ⟨_, _, rfl, rfl, .inc⟩
  rcases h.alt with h | h
  · obtain ⟨ks, rfl, h, _⟩ := h.call; obtain ⟨rfl, rfl⟩ := D.lit h; exact ⟨_, _, rfl, rfl, .lt⟩
  · obtain ⟨ks, rfl, h, _⟩ := h.call; obtain ⟨rfl, rfl⟩ := D.lit h; exact ⟨_, _, rfl, rfl, .gt⟩

/-! ### Terms -/

/-- SPECIFICATION. `msg!` and `cond!` have at most one argument. -/
def OneArg (q : Pair) : Prop := q.rule = .macro_application → ∀ n l, q.kids = n :: l → IsMsg n → l.length ≤ 1

/-- Shorter pairs of terms say what their texts say. -/
def Back (U : Char → Bool) (n : Nat) : Prop := ∀ p s a, sizeOf p < n → D U OneArg (.call .term) s [p] → cTerm true p = .ok a → LTm U a s

theorem D.one {r : Rule} {s : Tx} {p : List Pair} (h : D U P (.call r) s p) : ∃ x, p = [x] ∧ D U P (.call r) s [x] := by
  obtain ⟨ks, rfl, _⟩ := h.call; exact ⟨_, rfl, h⟩

variable {n : Nat}

theorem Back.br (H : Back U n) {s : Tx} {p : Pair} {a : Tm} (hn : sizeOf p < n) (h : D U OneArg bracketed s [p]) (e : cTerm true p = .ok a) :
    LBr U a s := by
  obtain ⟨w, s, rfl, hw, h⟩ := D.lit_then h
  obtain ⟨s, w', rfl, hw', h⟩ := h.then_lit
  exact .mk a w s w' hw (H p s a hn h e) hw'

theorem D.br {s : Tx} {p : List Pair} (h : D U P bracketed s p) : ∃ x, p = [x] ∧ D U P bracketed s [x] := by
  obtain ⟨w, s, rfl, hw, h'⟩ := D.lit_then h
  obtain ⟨s, w', rfl, hw', h'⟩ := h'.then_lit
  obtain ⟨x, rfl, _⟩ := h'.one
  exact ⟨x, rfl, h⟩

theorem Back.let (H : Back U n) {s : Tx} {ks : List Pair} {a : Tm} (hn : sizeOf ks < n) (h : D U OneArg (gram U .let_in) s ks)
    (e : cLet true ks = .ok a) : LTm U a s := by
  obtain ⟨w₁, s, rfl, hw₁, h⟩ := D.lit_then h
  obtain ⟨b, w₂, s, p₁, p₂, rfl, hw₂, rfl, hb, h⟩ := h.then
  obtain ⟨w₃, s, rfl, hw₃, h⟩ := h.lit_then
  obtain ⟨s₁, w₄, s, p₂, p₃, rfl, hw₄, rfl, h₁, h⟩ := h.then
  obtain ⟨w₅, s₂, rfl, hw₅, h₂⟩ := h.lit_then
  obtain ⟨x, v, rfl, ev, hv⟩ := hb.bnd
  obtain ⟨y, rfl, h₁⟩ := h₁.one
  obtain ⟨z, rfl, h₂⟩ := h₂.one
  simp at hn
  simp only [List.cons_append, List.nil_append, cLet] at e
  obtain ⟨v₀, ev₀, e⟩ := bind_ok e
  rw [ev] at ev₀; cases ev₀
  obtain ⟨t₁, e₁, e⟩ := bind_ok e
  obtain ⟨t₂, e₂, e⟩ := bind_ok e
  cases e
  exact .letin v t₁ t₂ w₁ b w₂ w₃ s₁ w₄ w₅ s₂ hw₁ hv hw₂ hw₃ (H y s₁ t₁ (by omega) h₁ e₁) hw₄ hw₅ (H z s₂ t₂ (by omega) h₂ e₂)

theorem Back.if (H : Back U n) {s : Tx} {ks : List Pair} {a : Tm} (hn : sizeOf ks < n) (h : D U OneArg (gram U .if_then_else) s ks)
    (e : cIf true ks = .ok a) : LTm U a s := by
  obtain ⟨w₁, s, rfl, hw₁, h⟩ := D.lit_then h
  obtain ⟨s₁, w₂, s, p₁, p₂, rfl, hw₂, rfl, h₁, h⟩ := h.then
  obtain ⟨s₂, w₃, s, p₂, p₃, rfl, hw₃, rfl, h₂, h⟩ := h.then
  obtain ⟨w₄, s₃, rfl, hw₄, h₃⟩ := h.lit_then
  obtain ⟨x, rfl, h₁⟩ := h₁.one
  obtain ⟨y, rfl, h₂⟩ := h₂.br
  obtain ⟨z, rfl, h₃⟩ := h₃.br
  simp at hn
  simp only [List.cons_append, List.nil_append, cIf] at e
  obtain ⟨t₁, e₁, e⟩ := bind_ok e
  obtain ⟨t₂, e₂, e⟩ := bind_ok e
  obtain ⟨t₃, e₃, e⟩ := bind_ok e
  cases e
  exact .ite _ _ _ w₁ s₁ w₂ s₂ w₃ w₄ s₃ hw₁ (H x s₁ t₁ (by omega) h₁ e₁) hw₂ (H.br (by omega) h₂ e₂) hw₃ hw₄ (H.br (by omega) h₃ e₃)

theorem Back.find (H : Back U n) {s : Tx} {ks : List Pair} {a : Tm} (hn : sizeOf ks < n) (h : D U OneArg (gram U .find_such_that) s ks)
    (e : cFind true ks = .ok a) : LTm U a s := by
  obtain ⟨w₁, s, rfl, hw₁, h⟩ := D.lit_then h
  obtain ⟨w₂, s, rfl, hw₂, h⟩ := h.lit_then
  obtain ⟨b, w₃, s, p₁, p₂, rfl, hw₃, rfl, hb, h⟩ := h.then
  obtain ⟨w₄, s, rfl, hw₄, h⟩ := h.lit_then
  obtain ⟨w₅, s, rfl, hw₅, h⟩ := h.lit_then
  obtain ⟨s₁, w₆, s, p₂, p₃, rfl, hw₆, rfl, h₁, h⟩ := h.then
  obtain ⟨w₇, s, rfl, hw₇, h⟩ := h.lit_then
  obtain ⟨s₂, w₈, s, p₃, p₄, rfl, hw₈, rfl, h₂, h⟩ := h.then
  obtain ⟨w₉, s₃, rfl, hw₉, h₃⟩ := h.lit_then
  obtain ⟨v', v, rfl, ev, hv⟩ := hb.bnds
  obtain ⟨x, rfl, h₁⟩ := h₁.br
  obtain ⟨y, rfl, h₂⟩ := h₂.br
  obtain ⟨z, rfl, h₃⟩ := h₃.br
  simp at hn
  simp only [List.cons_append, List.nil_append, cFind] at e
  obtain ⟨v₀, ev₀, e⟩ := bind_ok e
  rw [ev] at ev₀; cases ev₀
  obtain ⟨t₁, e₁, e⟩ := bind_ok e
  obtain ⟨t₂, e₂, e⟩ := bind_ok e
  obtain ⟨t₃, e₃, e⟩ := bind_ok e
  cases e
  exact .find v _ _ _ w₁ w₂ b w₃ w₄ w₅ s₁ w₆ w₇ s₂ w₈ w₉ s₃ hw₁ hw₂ hv hw₃ hw₄ hw₅ (H.br (by omega) h₁ e₁) hw₆ hw₇
    (H.br (by omega) h₂ e₂) hw₈ hw₉ (H.br (by omega) h₃ e₃)

theorem Back.quant (H : Back U n) {s : Tx} {ks : List Pair} {a : Tm} (hn : sizeOf ks < n) (h : D U OneArg (gram U .quantifier) s ks)
    (e : cQuantifier true ks = .ok a) : LTm U a s := by
  obtain ⟨q, w₁, s, p₁, p₂, rfl, hw₁, rfl, hq', h₁⟩ := D.then h
  obtain ⟨b, w₂, s, p₂, p₃, rfl, hw₂, rfl, hb, h₂⟩ := h₁.then
  obtain ⟨q', o, rfl, eq, hq⟩ := hq'.q
  obtain ⟨v', v, rfl, ev, hv⟩ := hb.bnds
  obtain ⟨x, rfl, h₃⟩ := h₂.br
  simp at hn
  simp only [List.cons_append, List.nil_append, cQuantifier] at e
  obtain ⟨v₀, ev₀, e⟩ := bind_ok e
  rw [eq] at ev₀; cases ev₀
  obtain ⟨v₀, ev₀, e⟩ := bind_ok e
  rw [ev] at ev₀; cases ev₀
  obtain ⟨t, e₁, e⟩ := bind_ok e
  cases e
  exact .quant o v t q w₁ b w₂ s hq hw₁ hv hw₂ (H.br (by omega) h₃ e₁)

theorem Back.args (H : Back U n) {s : Tx} {ks : List Pair} (h : PItems U OneArg .term ks s) :
    ∀ {l : List Tm}, sizeOf ks < n → cTerms true ks = .ok l → LArgs U l s := by
  induction h with
  | nil => intro l _ e; cases e; exact .nil
  | one p t w h hw =>
    intro l hn e
    simp at hn
    obtain ⟨a, e₁, e⟩ := bind_ok e
    cases e
    exact .one a t w (H p t a (by omega) h e₁) hw
  | cons p ps t w w' s h hw hw' _ ih =>
    intro l hn e
    simp at hn
    obtain ⟨a, e₁, e⟩ := bind_ok e
    obtain ⟨l', e₂, e⟩ := bind_ok e
    cases e
    exact .cons a l' t w w' s (H p t a (by omega) h e₁) hw hw' (ih (by omega) e₂)

theorem D.inner {s : Tx} {p : List Pair} (h : D U P innerApp s p) :
    ∃ o c w s', Br o c ∧ s = o :: (w ++ (s' ++ [c])) ∧ Blank w ∧ PItems U P .term p s' := by
  rcases D.alt h with h | h
  · obtain ⟨w, s', rfl, hw, h⟩ := h.listOf
    exact ⟨'(', ')', w, s', .inl ⟨rfl, rfl⟩, rfl, hw, h⟩
  · obtain ⟨w, s', rfl, hw, h⟩ := h.listOf
    exact ⟨'[', ']', w, s', .inr ⟨rfl, rfl⟩, rfl, hw, h⟩

theorem Items.nil_inv {α : Type} {W : α → Tx → Prop} {s : Tx} (h : Items W [] s) : s = [] := by cases h; rfl

theorem Back.appl (H : Back U n) {s : Tx} {ks : List Pair} {a : Appl} (hn : sizeOf ks < n) (h : D U OneArg (gram U .application) s ks)
    (e : cAppl true ks = .ok a) : LAppl U a s := by
  obtain ⟨s₁, w, s₂, p₁, p₂, rfl, hw, rfl, h₁, h₂⟩ := D.then h
  have hname : ∃ r ks, p₁ = [.node r s₁ ks] ∧ VarTx U s₁ ∧ (r = .function → ks = [.node .ident s₁ []] ∧ IdTx U s₁) ∧
      (r = .function ∨ r = .variable) := by
    rcases h₁.alt with h₁ | h₁
    · obtain ⟨rfl, h'⟩ := h₁.name rfl
      exact ⟨_, _, rfl, .inl h', fun _ => ⟨rfl, h'⟩, .inl rfl⟩
    · obtain ⟨ks, rfl, h'⟩ := h₁.var
      exact ⟨_, _, rfl, h', nofun, .inr rfl⟩
  obtain ⟨r, ks, rfl, hv, hf, hr⟩ := hname
  rcases h₂.opt with ⟨rfl, rfl⟩ | h₂
  · cases e
    have := LAppl.const (U := U) (String.ofList s₁) w (by simpa using hv) hw
    simpa [Pair.text] using this
  · obtain ⟨o, c, w', s', hbr, rfl, hw', hI⟩ := h₂.inner
    cases p₂ with
    | nil =>
      cases e
      have := LAppl.const0 (U := U) (String.ofList s₁) o c w w' (by simpa using hv) hbr hw hw'
      simpa [Pair.text, hI.nil_inv] using this
    | cons x l =>
      simp only [List.cons_append, List.nil_append, cAppl] at e
      split at e
      · cases e
      · cases e
      · obtain ⟨f, _, e⟩ := bind_ok e; cases e
      · rename_i args hargs
        obtain ⟨f, ef, e⟩ := bind_ok e
        cases e
        have ef := chk_ok ef
        have hr : r = .function := by simpa [Pair.rule] using ef.1
        obtain ⟨rfl, hid⟩ := hf hr
        have ef : String.ofList s₁ = f := by
          have := ef.2
          simp only [Pair.kids] at this
          have := (chk_ok this).2
          simpa [Pair.text] using this
        subst ef
        simp at hn
        have hA := H.args hI (by simp; omega) hargs
        cases args with
        | nil =>
          obtain ⟨_, _, e⟩ := bind_ok hargs
          obtain ⟨_, _, e⟩ := bind_ok e
          cases e
        | cons b args =>
          have := LAppl.app (U := U) (String.ofList s₁) o c b args w w' s' (by simpa using hid) hbr hw hw' hA
          simpa using this

theorem Back.rest (H : Back U n) {o : Op} {w : Tx} (hw : Blank w) : ∀ (L : List ((Tx × Tx) × List Pair)) {l : List Tm},
    sizeOf (L.map Prod.snd).flatten < n →
    (∀ x ∈ L, Blank x.1.1 ∧ D U OneArg (.call .operation ~~ .call .term) x.1.2 x.2) →
    cInfixRest true o (L.map Prod.snd).flatten = .ok l → LInfix U o l ((L.map fun x => x.1.1 ++ x.1.2).flatten ++ w) := by
  intro L
  induction L with
  | nil => intro l _ _ e; cases e; exact .nil o w hw
  | cons x L ih =>
    intro l hn hL e
    obtain ⟨hb, hx⟩ := hL x List.mem_cons_self
    obtain ⟨q, w', s, p₁, p₂, e₁, hw', e₂, hq, h⟩ := hx.then
    obtain ⟨y, o', rfl, eo, hq⟩ := hq.op
    obtain ⟨z, rfl, h⟩ := h.one
    obtain ⟨⟨w₁, x₁⟩, p⟩ := x
    simp only at e₁ e₂ hb
    subst e₁ e₂
    simp only [List.map_cons, List.flatten_cons, List.cons_append, List.nil_append, cInfixRest] at e hn ⊢
    obtain ⟨o₀, eo₀, e⟩ := bind_ok e
    rw [eo] at eo₀; cases eo₀
    split at e
    · rename_i ho
      subst ho
      obtain ⟨t, e₁, e⟩ := bind_ok e
      obtain ⟨l', e₂, e⟩ := bind_ok e
      cases e
      simp at hn
      have := LInfix.cons (U := U) o t l' w₁ q w' s _ hb hq hw' (H z s t (by omega) h e₁)
        (ih (by omega) (fun y hy => hL y (List.mem_cons_of_mem _ hy)) e₂)
      simpa using this
    · cases e

theorem LInfix.lead {o : Op} {l : List Tm} {w s : Tx} (hw : Blank w) (h : LInfix U o l s) : LInfix U o l (w ++ s) := by
  cases h with
  | nil _ _ h => exact .nil o _ (hw.append h)
  | cons _ t l w₁ q w' s r h₁ h₂ h₃ h₄ h₅ =>
    have := LInfix.cons (U := U) o t l (w ++ w₁) q w' s r (hw.append h₁) h₂ h₃ h₄ h₅
    simpa using this

theorem Back.infix (H : Back U n) {s : Tx} {ks : List Pair} {a : Tm} (hn : sizeOf ks < n) (h : D U OneArg (gram U .infix_term) s ks)
    (e : cInfix true ks = .ok a) : LTm U a s := by
  obtain ⟨w₁, s, rfl, hw₁, h⟩ := D.lit_then h
  obtain ⟨s₁, w₂, s, p₁, p₂, rfl, hw₂, rfl, h₁, h⟩ := h.then
  obtain ⟨s, w₃, rfl, hw₃, h⟩ := h.then_lit
  obtain ⟨s₂, w₄, s, p₂, p₃, rfl, hw₄, rfl, h₂, h₅⟩ := D.then h
  obtain ⟨q, w', s₂, p₄, p₅, rfl, hw', rfl, hq, h₃⟩ := h₂.then
  obtain ⟨x, rfl, h₁⟩ := h₁.one
  obtain ⟨y, o', rfl, eo, hq⟩ := hq.op
  obtain ⟨z, rfl, h₄⟩ := h₃.one
  obtain ⟨L, rfl, rfl, hL⟩ := h₅.many
  simp only [List.cons_append, List.nil_append, cInfix] at e hn
  simp at hn
  obtain ⟨t₁, e₁, e⟩ := bind_ok e
  obtain ⟨o₀, eo₀, e⟩ := bind_ok e
  rw [eo] at eo₀; cases eo₀
  obtain ⟨t₂, e₂, e⟩ := bind_ok e
  obtain ⟨l, e₃, e⟩ := bind_ok e
  cases e
  have := LTm.infx (U := U) o' t₁ (t₂ :: l) w₁ s₁ _ hw₁ (H x s₁ t₁ (by omega) h₁ e₁) (by simp)
    (.cons o' t₂ l w₂ q w' s₂ _ hw₂ hq hw' (H z s₂ t₂ (by omega) h₄ e₂) ((H.rest hw₃ L (by omega) hL e₃).lead hw₄))
  simpa using this

theorem D.term {s : Tx} {p : Pair} (h : D U P (.call .term) s [p]) :
    (∃ ks, p = .node .term s [.node .inner_term s [.node .infix_term s ks]] ∧ D U P (gram U .infix_term) s ks) ∨
    ∃ r ks, p = .node .term s [.node .inner_term s [.node .commun_base s [.node r s ks]]] ∧ D U P (gram U r) s ks ∧ P (.node r s ks) ∧
      r ∈ [Rule.let_in, .if_then_else, .find_such_that, .quantifier, .macro_application, .application] := by
  obtain ⟨ks, e, h', _⟩ := h.call
  cases e
  obtain ⟨ks, rfl, h, _⟩ := D.call h'
  rcases D.alt h with h | h
  · obtain ⟨ks, rfl, h, _⟩ := D.call h
    simp only [gram, choice] at h
    refine .inr ?_
    rcases h.alt with h | h
    · obtain ⟨ks, rfl, g⟩ := h.call; exact ⟨_, _, rfl, g.1, g.2, by simp⟩
    rcases h.alt with h | h
    · obtain ⟨ks, rfl, g⟩ := h.call; exact ⟨_, _, rfl, g.1, g.2, by simp⟩
    rcases h.alt with h | h
    · obtain ⟨ks, rfl, g⟩ := h.call; exact ⟨_, _, rfl, g.1, g.2, by simp⟩
    rcases h.alt with h | h
    · obtain ⟨ks, rfl, g⟩ := h.call; exact ⟨_, _, rfl, g.1, g.2, by simp⟩
    rcases h.alt with h | h
    · obtain ⟨ks, rfl, g⟩ := h.call; exact ⟨_, _, rfl, g.1, g.2, by simp⟩
    · obtain ⟨ks, rfl, g⟩ := h.call; exact ⟨_, _, rfl, g.1, g.2, by simp⟩
  · obtain ⟨ks, rfl, g⟩ := D.call h
    exact .inl ⟨_, rfl, g.1⟩

theorem Items.one_inv {α : Type} {W : α → Tx → Prop} {a : α} {s : Tx} (h : Items W [a] s) : ∃ t tl, s = t ++ tl ∧ W a t ∧ Tl tl := by
  cases h with
  | one _ t w h hw => exact ⟨t, w, rfl, h, .none w hw⟩
  | cons _ _ t w w' s h hw hw' hs => cases hs; exact ⟨t, _, rfl, h, .comma w _ hw (by simpa using hw')⟩

/-- `from_term_to_application` in a debug build. -/
theorem cMacro_one {n p : Pair} {m : String} {a : Tm} {s : Tx} (hn : cName true .macro_name n = .ok m) (hm : mkind m ≠ .other)
    (hp : D U OneArg (.call .term) s [p]) (e : cMacro true [n, p] = .ok a) :
    ∃ ks b, p = .node .term s [.node .inner_term s [.node .commun_base s [.node .application s ks]]] ∧
      D U OneArg (gram U .application) s ks ∧ cAppl true ks = .ok b ∧
      (m.toList = c!"msg" ∧ a = b.toTm .msg ∨ m.toList = c!"cond" ∧ a = b.toTm .cond) := by
  rcases hp.term with ⟨ks, rfl, h⟩ | ⟨r, ks, rfl, h, _, hr⟩
  · simp only [cMacro] at e
    obtain ⟨m', em, e⟩ := bind_ok e
    rw [hn] at em; cases em
    cases hk : mkind m <;> simp [hk] at e hm
  · simp only [cMacro] at e
    obtain ⟨m', em, e⟩ := bind_ok e
    rw [hn] at em; cases em
    have hr' : r = .application := by
      cases hk : mkind m <;> simp only [hk, Bool.true_and] at e hm
      · simp at e
        split at e
        · rename_i h; simpa using h
        · cases e
      · simp at e
        split at e
        · rename_i h; simpa using h
        · cases e
      · exact absurd rfl hm
    subst hr'
    cases hk : mkind m
    · simp [hk] at e
      obtain ⟨b, eb, e⟩ := bind_ok e
      cases e
      refine ⟨ks, b, rfl, h, eb, .inl ⟨?_, rfl⟩⟩
      simp only [mkind] at hk
      split at hk
      · assumption
      · split at hk <;> cases hk
    · simp [hk] at e
      obtain ⟨b, eb, e⟩ := bind_ok e
      cases e
      refine ⟨ks, b, rfl, h, eb, .inr ⟨?_, rfl⟩⟩
      simp only [mkind] at hk
      split at hk
      · cases hk
      · split at hk
        · assumption
        · cases hk
    · exact absurd hk hm

theorem mkind_back {m : String} (h : mkind m = .other) : m.toList ≠ c!"msg" ∧ m.toList ≠ c!"cond" := by
  simp only [mkind] at h
  split at h
  · cases h
  · split at h
    · cases h
    · exact ⟨by assumption, by assumption⟩

theorem Back.mac (H : Back U n) {s : Tx} {ks : List Pair} {a : Tm} (hn : sizeOf ks < n) (h : D U OneArg (gram U .macro_application) s ks)
    (h1 : OneArg (.node .macro_application s ks)) (e : cMacro true ks = .ok a) : LTm U a s := by
  obtain ⟨s₁, w, s₂, p₁, p₂, rfl, hw, rfl, h₁, h₂⟩ := D.then h
  obtain ⟨m, rfl, hm, rfl⟩ := h₁.mname
  have en : cName true .macro_name (.node .macro_name (m ++ c!"!") [.node .ident m []]) = .ok (String.ofList m) := rfl
  by_cases hk : mkind (String.ofList m) = .other
  · obtain ⟨hm₁, hm₂⟩ := mkind_back hk
    simp only [List.cons_append, List.nil_append, cMacro] at e
    obtain ⟨m', em, e⟩ := bind_ok e
    rw [en] at em; cases em
    simp only [hk] at e
    obtain ⟨l, el, e⟩ := bind_ok e
    cases e
    rcases h₂.opt with ⟨rfl, rfl⟩ | h₂
    · cases el
      have := LTm.mac0 (U := U) (String.ofList m) w (by simpa using hm) hm₁ hm₂ hw
      simpa using this
    · obtain ⟨o, c, w', s', hbr, rfl, hw', hI⟩ := h₂.inner
      simp at hn
      have := LTm.mac (U := U) (String.ofList m) o c l w w' s' (by simpa using hm) hm₁ hm₂ hbr hw hw' (H.args hI (by omega) el)
      simpa using this
  · have hone := h1 rfl _ p₂ rfl
    have hmsg : IsMsg (.node .macro_name (m ++ c!"!") [.node .ident m []]) := by
      simp only [mkind, String.toList_ofList] at hk
      split at hk
      · rename_i h; subst h; exact .inl rfl
      · split at hk
        · rename_i h; subst h; exact .inr rfl
        · exact absurd rfl hk
    have hone := hone hmsg
    match p₂ with
    | [] =>
      simp only [List.cons_append, List.nil_append, cMacro] at e
      obtain ⟨m', em, e⟩ := bind_ok e
      rw [en] at em; cases em
      cases hk' : mkind (String.ofList m) <;> simp [hk'] at e hk
    | [x] =>
      rcases h₂.opt with ⟨_, h⟩ | h₂
      · cases h
      obtain ⟨o, c, w', s', hbr, rfl, hw', hI⟩ := h₂.inner
      obtain ⟨t, tl, rfl, hx, htl⟩ := hI.one_inv
      obtain ⟨ks, b, rfl, hD, eb, hb⟩ := cMacro_one en hk hx e
      simp at hn
      have hb' := H.appl (by omega) hD eb
      rcases hb with ⟨hm', rfl⟩ | ⟨hm', rfl⟩
      · rw [String.toList_ofList] at hm'
        subst hm'
        have := LTm.msg (U := U) o c b w w' t tl hbr hw hw' hb' htl
        simpa using this
      · rw [String.toList_ofList] at hm'
        subst hm'
        have := LTm.cond (U := U) o c b w w' t tl hbr hw hw' hb' htl
        simpa using this
    | _ :: _ :: _ => simp at hone

theorem back : ∀ n, Back U n := by
  intro n
  induction n with
  | zero => intro p s a hn; omega
  | succ n H =>
    intro p s a hn h e
    rcases h.term with ⟨ks, rfl, h'⟩ | ⟨r, ks, rfl, h', hP, hr⟩
    · simp at hn
      simp [cTerm] at e
      exact H.infix (by omega) h' e
    · simp at hn
      simp only [List.mem_cons, List.not_mem_nil, or_false] at hr
      rcases hr with rfl | rfl | rfl | rfl | rfl | rfl <;> simp [cTerm] at e
      · exact H.let (by omega) h' e
      · exact H.if (by omega) h' e
      · exact H.find (by omega) h' e
      · exact H.quant (by omega) h' e
      · exact H.mac (by omega) h' hP e
      · obtain ⟨b, eb, e⟩ := bind_ok e
        cases e
        exact .appl b s (H.appl (by omega) h' eb)

theorem term_back {s : Tx} {p : Pair} {a : Tm} (h : D U OneArg (.call .term) s [p]) (e : cTerm true p = .ok a) : LTm U a s :=
  back _ p s a (Nat.lt_succ_self _) h e
theorem br_back {s : Tx} {p : Pair} {a : Tm} (h : D U OneArg bracketed s [p]) (e : cTerm true p = .ok a) : LBr U a s :=
  (back _).br (Nat.lt_succ_self _) h e
theorem appl_back {s : Tx} {p : Pair} {a : Appl} (h : D U OneArg (.call .application) s [p]) (e : cApplication true p = .ok a) :
    LAppl U a s := by
  obtain ⟨ks, e', h', _⟩ := h.call
  cases e'
  exact (back _).appl (Nat.lt_succ_self _) h' (chk_ok e).2

/-! ### Statements -/

theorem no_chr_inv {k : Char → Bool} {c : Char} {t : Tx} (h : No (gram U) (.chr k) (c :: t)) : k c = false := by
  obtain ⟨n, h⟩ := h
  cases n with
  | zero => simp [run] at h
  | succ n =>
    simp only [run] at h
    split at h
    · cases h
    · rename_i h'; simpa only [Bool.not_eq_true] using h'

theorem no_id {s t : Tx} (h : No (gram U) (.chr (idc U)) (s ++ t)) (hs : IdTx U s) : False := by
  obtain ⟨c, r, rfl, hc, _⟩ := hs
  have := no_chr_inv h
  have hc : letter U c = true := hc
  simp [idc, hc] at this

theorem der_then {a b : G} {s t : Tx} {p : List Pair} (h : Der U (a ~~ b) s t p) :
    ∃ s₁ w s₂ p₁ p₂, s = s₁ ++ (w ++ s₂) ∧ Blank w ∧ p = p₁ ++ p₂ ∧ Der U a s₁ (w ++ (s₂ ++ t)) p₁ ∧ Der U b s₂ t p₂ := by
  cases h with
  | seq h₁ h₂ =>
    cases h₂ with
    | seq h₂ h₃ =>
      obtain ⟨rfl, hw⟩ := der_skip h₂
      exact ⟨_, _, _, _, _, rfl, hw, rfl, by simpa using h₁, h₃⟩

/-- A name, and its conversion. -/
def IsName (U : Char → Bool) (r : Rule) (f : Pair → Out String) : Prop :=
  ∀ s t p, Der U (.call r) s t p → IdTx U s ∧ No (gram U) (.chr (idc U)) t ∧ ∃ x, p = [x] ∧ f x = .ok (String.ofList s)

theorem isName_ident : IsName U .ident (cIdent true) := by
  intro s t p h
  obtain ⟨rfl, h₁, h₂⟩ := der_ident h
  exact ⟨h₁, h₂, _, rfl, rfl⟩

theorem isName_name {r : Rule} (hr : gram U r = .call .ident) : IsName U r (cName true r) := by
  intro s t p h
  cases h with
  | call h =>
    rw [hr] at h
    obtain ⟨rfl, h₁, h₂⟩ := der_ident h
    refine ⟨h₁, h₂, _, rfl, ?_⟩
    simp [cName, chk, cIdent, Pair.rule, Pair.kids, Pair.text]

theorem der_fns {r : Rule} {f : Pair → Out String} (hf : IsName U r f) {s t : Tx} {p : List Pair}
    (h : Der U (.star (.seq skipG (.call r))) s t p) : No (gram U) (.chr (idc U)) (s ++ t) → ∃ l, cAll f p = .ok l ∧ WFns U l s := by
  generalize hg : G.star (.seq skipG (.call r)) = g at h
  induction h with
  | star0 => exact fun _ => ⟨[], rfl, .nil⟩
  | star1 h₁ h₂ _ ih =>
    intro hn
    cases hg
    cases h₁ with
    | @seq _ _ w s₁ _ _ _ hw₀ hx =>
      obtain ⟨rfl, hw⟩ := der_skip hw₀
      obtain ⟨hid, hn', x, rfl, e⟩ := hf _ _ _ hx
      obtain ⟨l, e', hl⟩ := ih rfl hn'
      refine ⟨_ :: l, by simp [cAll, e, e', Out.bind]; rfl, ?_⟩
      have hne : w ≠ [] := by
        rintro rfl
        rw [List.nil_append, List.append_assoc] at hn
        exact no_id hn hid
      have := WFns.cons (U := U) (String.ofList s₁) l w _ hw hne (by simpa using hid) hl
      simpa using this
  | _ => cases hg

theorem der_ids {r : Rule} {f : Pair → Out String} (hf : IsName U r f) {s t : Tx} {p : List Pair} (h : Der U (many (.call r)) s t p) :
    ∃ l, cAll f p = .ok l ∧ LIds U l s := by
  cases h with
  | opt0 => exact ⟨[], rfl, .nil⟩
  | opt1 h =>
    cases h with
    | seq h₁ h₂ =>
      obtain ⟨hid, hn, x, rfl, e⟩ := hf _ _ _ h₁
      obtain ⟨l, e', hl⟩ := der_fns hf h₂ hn
      rename_i s₁ _ _
      refine ⟨String.ofList s₁ :: l, by simp [cAll, e, e', Out.bind], ?_⟩
      have := LIds.cons (U := U) (String.ofList s₁) l _ (by simpa using hid) hl
      simpa using this

theorem D.opts {s : Tx} {p : List Pair} (h : D U P (.opt (.call .options)) s p) : ∃ l, cOpts true p = .ok l ∧ LOpts U l s := by
  rcases h.opt with ⟨rfl, rfl⟩ | h
  · exact ⟨[], rfl, .none⟩
  · obtain ⟨ks, rfl, h, _⟩ := h.call
    obtain ⟨w, s, rfl, hw, h⟩ := D.lit_then h
    obtain ⟨s, w', rfl, hw', h⟩ := h.then_lit
    obtain ⟨⟨t, h⟩, _⟩ := h
    obtain ⟨l, e, hl⟩ := der_ids isName_ident h
    exact ⟨l, e, .some l w s w' hw hl hw'⟩

theorem D.sorts {s : Tx} {p : List Pair} (h : D U P (.call .declare_function_args) s p) :
    ∃ x l, p = [x] ∧ cFunArgs true x = .ok l ∧ WSorts U l s := by
  obtain ⟨ks, rfl, h, _⟩ := h.call
  rcases D.opt h with ⟨rfl, rfl⟩ | h
  · exact ⟨_, [], rfl, rfl, .none⟩
  · obtain ⟨w, s', rfl, hw, hI⟩ := h.listOf
    obtain ⟨v, e, hv⟩ := items_all (f := cName true .type_name) (V := fun x t => IdTx U t ∧ t = x.toList) hI fun p s h => by
      obtain ⟨e, h'⟩ := h.name rfl; cases e; exact ⟨String.ofList s, rfl, h', by simp⟩
    exact ⟨_, v, rfl, e, .some v w s' hw hv⟩

theorem type_back {s : Tx} {p : Pair} {a : Stm} (h : D U OneArg (.call .declare_type) s [p]) (e : cType true p = .ok a) : LStm U a s := by
  obtain ⟨ks, e', h', _⟩ := h.call
  cases e'
  obtain ⟨w, s, rfl, hw, h₁⟩ := D.lit_then h'
  obtain ⟨n, w', tl, p₁, p₂, rfl, hw', rfl, hn, h₂⟩ := h₁.then
  obtain ⟨rfl, hn'⟩ := hn.name rfl
  obtain ⟨l, el, hl⟩ := h₂.opts
  obtain ⟨_, e⟩ := chk_ok e
  obtain ⟨n', en, e⟩ := bind_ok e
  cases en
  obtain ⟨l', el', e⟩ := bind_ok e
  cases el.symm.trans el'
  cases e
  have := LStm.type (U := U) (String.ofList n) l w w' tl (by simpa using hn') hw hw' hl
  simpa [Pair.text] using this

theorem fun_back {s : Tx} {kw : Tx} {ks : List Pair} (h : D U P (.lit kw ~~ .call .function ~~ .call .declare_function_args ~~ .lit c!":" ~~ .call .type_name
      ~~ .opt (.call .options)) s ks) : ∃ x y z p n a T l w₁ w₂ b w₃ w₄ w₅ tl, ks = x :: y :: z :: p ∧ cName true .function x = .ok n ∧
      cFunArgs true y = .ok a ∧ cName true .type_name z = .ok T ∧ cOpts true p = .ok l ∧ IdTx U n.toList ∧ IdTx U T.toList ∧ Blank w₁ ∧
      Blank w₂ ∧ WSorts U a b ∧ Blank w₃ ∧ Blank w₄ ∧ Blank w₅ ∧ LOpts U l tl ∧
      s = kw ++ (w₁ ++ (n.toList ++ (w₂ ++ (b ++ (w₃ ++ (c!":" ++ (w₄ ++ (T.toList ++ (w₅ ++ tl))))))))) := by
  obtain ⟨w₁, s, rfl, hw₁, h₁⟩ := h.lit_then
  obtain ⟨n, w₂, s, p₁, p₂, rfl, hw₂, rfl, hn, h₂⟩ := h₁.then
  obtain ⟨b, w₃, s, p₂, p₃, rfl, hw₃, rfl, hb, h₃⟩ := h₂.then
  obtain ⟨w₄, s, rfl, hw₄, h₄⟩ := h₃.lit_then
  obtain ⟨T, w₅, tl, p₃, p₄, rfl, hw₅, rfl, hT, h₅⟩ := h₄.then
  obtain ⟨rfl, hn'⟩ := hn.name rfl
  obtain ⟨rfl, hT'⟩ := hT.name rfl
  obtain ⟨y, a, rfl, ea, ha⟩ := hb.sorts
  obtain ⟨l, el, hl⟩ := h₅.opts
  exact ⟨_, y, _, p₄, String.ofList n, a, String.ofList T, l, w₁, w₂, b, w₃, w₄, w₅, tl, rfl, rfl, ea, rfl, el, by simpa using hn',
    by simpa using hT', hw₁, hw₂, ha, hw₃, hw₄, hw₅, hl, by simp⟩

theorem func_back {s : Tx} {p : Pair} {a : Stm} (h : D U OneArg (.call .declare_function) s [p])
    (e : cFun true .declare_function .func p = .ok a) : LStm U a s := by
  obtain ⟨ks, e', h', _⟩ := h.call
  cases e'
  obtain ⟨x, y, z, p, n, v, T, l, w₁, w₂, b, w₃, w₄, w₅, tl, rfl, e₁, e₂, e₃, e₄, h₁, h₂, h₃, h₄, h₅, h₆, h₇, h₈, h₉, rfl⟩ := fun_back h'
  obtain ⟨_, e⟩ := chk_ok e
  simp only [Pair.kids] at e
  obtain ⟨_, e', e⟩ := bind_ok e
  rw [e₁] at e'; cases e'
  obtain ⟨_, e', e⟩ := bind_ok e
  rw [e₂] at e'; cases e'
  obtain ⟨_, e', e⟩ := bind_ok e
  rw [e₃] at e'; cases e'
  obtain ⟨_, e', e⟩ := bind_ok e
  rw [e₄] at e'; cases e'
  cases e
  exact .func n T v l w₁ w₂ b w₃ w₄ w₅ tl h₁ h₂ h₃ h₄ h₅ h₆ h₇ h₈ h₉

theorem cell_back {s : Tx} {p : Pair} {a : Stm} (h : D U OneArg (.call .declare_cell) s [p])
    (e : cFun true .declare_cell .cell p = .ok a) : LStm U a s := by
  obtain ⟨ks, e', h', _⟩ := h.call
  cases e'
  obtain ⟨x, y, z, p, n, v, T, l, w₁, w₂, b, w₃, w₄, w₅, tl, rfl, e₁, e₂, e₃, e₄, h₁, h₂, h₃, h₄, h₅, h₆, h₇, h₈, h₉, rfl⟩ := fun_back h'
  obtain ⟨_, e⟩ := chk_ok e
  simp only [Pair.kids] at e
  obtain ⟨_, e', e⟩ := bind_ok e
  rw [e₁] at e'; cases e'
  obtain ⟨_, e', e⟩ := bind_ok e
  rw [e₂] at e'; cases e'
  obtain ⟨_, e', e⟩ := bind_ok e
  rw [e₃] at e'; cases e'
  obtain ⟨_, e', e⟩ := bind_ok e
  rw [e₄] at e'; cases e'
  cases e
  exact .cell n T v l w₁ w₂ b w₃ w₄ w₅ tl h₁ h₂ h₃ h₄ h₅ h₆ h₇ h₈ h₉

theorem asg_back {s : Tx} {p : Pair} {a : Asg} (h : D U OneArg (.call .assignement) s [p]) (e : cAsg true p = .ok a) : LAsg U a s := by
  obtain ⟨ks, e', h', _⟩ := h.call
  cases e'
  obtain ⟨b, w, s, p₁, p₂, rfl, hw, rfl, hb, h₁⟩ := D.then h'
  obtain ⟨s₁, w₁, s, p₂, p₃, rfl, hw₁, rfl, h₂, h₃⟩ := h₁.then
  obtain ⟨w₂, s₂, rfl, hw₂, h₄⟩ := h₃.lit_then
  obtain ⟨x, v, rfl, ev, hv⟩ := hb.bnds
  obtain ⟨y, rfl, h₂'⟩ := h₂.one
  obtain ⟨z, rfl, h₄'⟩ := h₄.one
  obtain ⟨_, e⟩ := chk_ok e
  simp only [Pair.kids, List.cons_append, List.nil_append] at e
  obtain ⟨c, ec, e⟩ := bind_ok e
  obtain ⟨t, et, e⟩ := bind_ok e
  obtain ⟨_, e', e⟩ := bind_ok e
  rw [ev] at e'; cases e'
  cases e
  exact .mk v c t b w s₁ w₁ w₂ s₂ hv hw (appl_back h₂' ec) hw₁ hw₂ (term_back h₄' et)

theorem asgs_back {s : Tx} {p : Pair} {l : List Asg} (h : D U OneArg (.call .assignements) s [p]) (e : cAsgs true p = .ok l) :
    LAsgs U (some l) s := by
  obtain ⟨ks, e', h', _⟩ := h.call
  cases e'
  obtain ⟨w, s', rfl, hw, hI⟩ := D.listOf h'
  obtain ⟨_, e⟩ := chk_ok e
  exact .some l w s' hw (items_back hI (fun p _ s a h e => asg_back h e) l e)

theorem step_back {s : Tx} {p : Pair} {a : Stm} (h : D U OneArg (.call .step) s [p]) (e : cStep true p = .ok a) : LStm U a s := by
  obtain ⟨ks, e', h', _⟩ := h.call
  cases e'
  obtain ⟨w₁, s, rfl, hw₁, h₁⟩ := D.lit_then h'
  obtain ⟨n, w₂, s, p₁, p₂, rfl, hw₂, rfl, hn, h₂⟩ := h₁.then
  obtain ⟨b, w₃, s, p₂, p₃, rfl, hw₃, rfl, hb, h₃⟩ := h₂.then
  obtain ⟨s₁, w₄, s, p₃, p₄, rfl, hw₄, rfl, h₄, h₅⟩ := h₃.then
  obtain ⟨s₂, w₅, s, p₄, p₅, rfl, hw₅, rfl, h₆, h₇⟩ := h₅.then
  obtain ⟨s₃, w₆, s₄, p₅, p₆, rfl, hw₆, rfl, h₈, h₉⟩ := h₇.then
  obtain ⟨rfl, hn'⟩ := hn.name rfl
  obtain ⟨x, v, rfl, ev, hv⟩ := hb.bnds
  obtain ⟨y, rfl, h₄'⟩ := h₄.br
  obtain ⟨z, rfl, h₆'⟩ := h₆.br
  obtain ⟨_, e⟩ := chk_ok e
  simp only [Pair.kids, List.cons_append, List.nil_append] at e
  obtain ⟨_, e', e⟩ := bind_ok e
  cases e'
  obtain ⟨_, e', e⟩ := bind_ok e
  rw [ev] at e'; cases e'
  obtain ⟨c, ec, e⟩ := bind_ok e
  obtain ⟨m, em, e⟩ := bind_ok e
  obtain ⟨r, er, e⟩ := bind_ok e
  split at e
  · cases e
    have key : LAsgs U r.1 s₃ ∧ LOpts U r.2 s₄ ∧ (r.1 = none → r.2 = []) := by
      rcases h₈.opt with ⟨rfl, rfl⟩ | h₈
      · rcases h₉.opt with ⟨rfl, rfl⟩ | h₉
        · cases er; exact ⟨.none, .none, fun _ => rfl⟩
        · obtain ⟨ks, rfl, _⟩ := h₉.call
          cases er
      · obtain ⟨ks, rfl, _⟩ := h₈.call
        obtain ⟨l, el, hl⟩ := h₉.opts
        simp only [cStepEnd, List.cons_append, List.nil_append, List.getElem?_cons_zero, List.getElem?_cons_succ] at er
        split at er
        · cases er
        · cases er
        · obtain ⟨_, eo, _⟩ := bind_ok er
          exact absurd (chk_ok eo).1 (by simp [Pair.rule])
        · rename_i as ha
          rcases h₉.opt with ⟨rfl, rfl⟩ | h₉
          · cases er
            exact ⟨asgs_back h₈ ha, .none, nofun⟩
          · obtain ⟨ks, rfl, _⟩ := h₉.call
            simp only [List.getElem?_cons_zero] at er
            obtain ⟨o, eo, er⟩ := bind_ok er
            simp only [cOpts] at el
            rw [el] at eo; cases eo
            cases er
            exact ⟨asgs_back h₈ ha, hl, nofun⟩
    have := LStm.step (U := U) (String.ofList n) v c m r.1 r.2 w₁ w₂ b w₃ s₁ w₄ s₂ w₅ s₃ w₆ s₄ (by simpa using hn') hw₁ hw₂ hv hw₃
      (br_back h₄' ec) hw₄ (br_back h₆' em) hw₅ key.1 hw₆ key.2.1 key.2.2
    simpa [Pair.text] using this
  · cases e

theorem inner_back {kw : AKind} {s : Tx} {ks : List Pair} {a : Tm × List String} {k : Pair}
    (h : D U OneArg (.lit kw.kw ~~ .call .assertion_inner) s (k :: ks)) (e : cAssertion true k = .ok a) : LStm U (.assert kw a.1 a.2) s := by
  obtain ⟨w, s, rfl, hw, h₁⟩ := h.lit_then
  obtain ⟨ks, e', h₂, _⟩ := h₁.call
  cases e'
  obtain ⟨s, w', tl, p₁, p₂, rfl, hw', rfl, h₃, h₄⟩ := D.then h₂
  obtain ⟨x, rfl, h₃'⟩ := h₃.one
  obtain ⟨l, el, hl⟩ := h₄.opts
  obtain ⟨_, e⟩ := chk_ok e
  obtain ⟨t, et, e⟩ := bind_ok e
  obtain ⟨_, e', e⟩ := bind_ok e
  cases el.symm.trans e'
  cases e
  exact .assert kw t l w s w' tl hw (term_back h₃' et) hw' hl

theorem inner_ex {kw : AKind} {s : Tx} {ks : List Pair}
    (h : D U OneArg (.lit kw.kw ~~ .call .assertion_inner) s ks) : ∃ k, ks = [k] := by
  obtain ⟨w, s, rfl, hw, h₁⟩ := h.lit_then
  obtain ⟨ks, e', h₂, _⟩ := h₁.call
  exact ⟨_, e'⟩

theorem crypto_back {s : Tx} {p : Pair} {a : Stm} (h : D U OneArg (.call .assertion_crypto) s [p]) (e : cCrypto true p = .ok a) :
    LStm U a s := by
  obtain ⟨ks, e', h', _⟩ := h.call
  cases e'
  obtain ⟨w, s, rfl, hw, h₁⟩ := D.lit_then h'
  obtain ⟨⟨t, h₁⟩, hP⟩ := h₁
  obtain ⟨n, w₁, s, p₁, p₂, rfl, hw₁, rfl, hn, h₂⟩ := der_then h₁
  obtain ⟨s₁, w', tl, p₂, p₃, rfl, hw', rfl, h₃, h₄⟩ := der_then h₂
  obtain ⟨rfl, hid, hno⟩ := der_ident hn
  have h₄ : D U OneArg (.opt (.call .options)) tl p₃ := ⟨⟨t, h₄⟩, fun k hk => hP k (by simp [hk])⟩
  obtain ⟨l, el, hl⟩ := h₄.opts
  obtain ⟨f, ef, hf⟩ := der_ids (isName_name (r := .function) rfl) h₃
  have hfns : ∃ s' w'', w₁ ++ (s₁ ++ w') = s' ++ w'' ∧ WFns U f s' ∧ Blank w'' := by
    cases hf with
    | nil => exact ⟨[], w₁ ++ w', by simp, .nil, hw₁.append hw'⟩
    | cons x l s hx hl =>
      refine ⟨w₁ ++ (x.toList ++ s), w', by simp, .cons x l w₁ s hw₁ ?_ hx hl, hw'⟩
      rintro rfl
      have := hno
      simp only [List.nil_append, List.append_assoc] at this
      exact no_id this hx
  obtain ⟨s', w'', es, hf', hw''⟩ := hfns
  have ea : a = .crypto (String.ofList n) f l := by
    obtain ⟨_, g⟩ := chk_ok e
    clear e
    simp only [Pair.kids, List.cons_append, List.nil_append] at g
    obtain ⟨_, e', g⟩ := bind_ok g
    cases e'
    have hnot : ∀ q ∈ p₂, q.rule = .function := by
      clear * - ef
      induction p₂ generalizing f with
      | nil => simp
      | cons x p₂ ih =>
        obtain ⟨y, e₁, e⟩ := bind_ok ef
        obtain ⟨l', e₂, e⟩ := bind_ok e
        intro q hq
        rcases List.mem_cons.1 hq with rfl | hq
        · simpa using (chk_ok e₁).1
        · exact ih _ e₂ q hq
    rcases h₄.opt with ⟨rfl, rfl⟩ | h₅
    · cases el
      rw [List.append_nil] at g
      split at g
      · rename_i o ho
        have := hnot o (List.mem_of_getLast? ho)
        rw [if_neg (by rw [this]; decide)] at g
        obtain ⟨f', ef', g⟩ := bind_ok g
        cases ef.symm.trans ef'
        cases g; rfl
      · rename_i ho
        rw [List.getLast?_eq_none_iff] at ho
        subst ho
        cases ef
        cases g; rfl
    · obtain ⟨ks, rfl, _⟩ := h₅.call
      simp only [List.getLast?_append, List.getLast?_singleton, Option.some_or, Pair.rule, if_true, List.dropLast_concat] at g
      obtain ⟨l', el', g⟩ := bind_ok g
      obtain ⟨f', ef', g⟩ := bind_ok g
      cases ef.symm.trans ef'
      cases el.symm.trans el'
      cases g; rfl
  subst ea
  have := LStm.crypto (U := U) (String.ofList n) f l w s' w'' tl (by simpa using hid) hw hf' hw'' hl
  rw [String.toList_ofList] at this
  have e₂ : n ++ (w₁ ++ (s₁ ++ (w' ++ tl))) = n ++ (s' ++ (w'' ++ tl)) := by
    rw [← List.append_assoc s', ← es]; simp
  rw [e₂]
  exact this

theorem mac_back {s : Tx} {p : Pair} {a : Stm} (h : D U OneArg (.call .mlet) s [p]) (e : cMac true p = .ok a) : LStm U a s := by
  obtain ⟨ks, e', h', _⟩ := h.call
  cases e'
  obtain ⟨w₁, s, rfl, hw₁, h₁⟩ := D.lit_then h'
  obtain ⟨n, w₂, s, p₁, p₂, rfl, hw₂, rfl, hn, h₂⟩ := h₁.then
  obtain ⟨b, w₃, s, p₂, p₃, rfl, hw₃, rfl, hb, h₃⟩ := h₂.then
  obtain ⟨w₄, s, rfl, hw₄, h₄⟩ := h₃.lit_then
  obtain ⟨s, w₅, tl, p₃, p₄, rfl, hw₅, rfl, h₅, h₆⟩ := h₄.then
  obtain ⟨m, rfl, hm, rfl⟩ := hn.mname
  obtain ⟨x, v, rfl, ev, hv⟩ := hb.bnds
  obtain ⟨y, rfl, h₅'⟩ := h₅.one
  obtain ⟨l, el, hl⟩ := h₆.opts
  obtain ⟨_, e⟩ := chk_ok e
  simp only [Pair.kids, List.cons_append, List.nil_append] at e
  obtain ⟨_, e', e⟩ := bind_ok e
  cases e'
  obtain ⟨_, e', e⟩ := bind_ok e
  rw [ev] at e'; cases e'
  obtain ⟨t, et, e⟩ := bind_ok e
  obtain ⟨_, e', e⟩ := bind_ok e
  rw [el] at e'; cases e'
  cases e
  have := LStm.mac (U := U) (String.ofList m) v t l w₁ w₂ b w₃ w₄ s w₅ tl (by simpa using hm) hw₁ hw₂ hv hw₃ hw₄ (term_back h₅' et) hw₅ hl
  simpa [Pair.text] using this

theorem D.innerOrder {s : Tx} {p : List Pair} (h : D U OneArg innerOrder s p) :
    ∃ g x y z s₀ w₀ s₁ w₁ q w₂ s₂ op, p = g ++ [x, y, z] ∧ s = s₀ ++ (w₀ ++ (s₁ ++ (w₁ ++ (q ++ (w₂ ++ s₂))))) ∧ Blank w₀ ∧ Blank w₁ ∧
      Blank w₂ ∧ D U OneArg (.call .term) s₁ [x] ∧ cOrdOp true y = .ok op ∧ WOrd op q ∧ D U OneArg (.call .term) s₂ [z] ∧
      (g = [] ∧ s₀ = [] ∨ ∃ u o t s w, g = [.node .order_guard s₀ [u, o]] ∧ s₀ = s ++ (w ++ c!"=>") ∧ Blank w ∧ t = s ∧
        D U OneArg (.call .term) s [u]) := by
  obtain ⟨s₀, w₀, s, p₀, p₁, rfl, hw₀, rfl, h₀, h₁⟩ := D.then h
  obtain ⟨s₁, w₁, s, p₁, p₂, rfl, hw₁, rfl, h₂, h₃⟩ := h₁.then
  obtain ⟨q, w₂, s₂, p₂, p₃, rfl, hw₂, rfl, hq, h₄⟩ := h₃.then
  obtain ⟨x, rfl, h₂'⟩ := h₂.one
  obtain ⟨y, op, rfl, ey, hop⟩ := hq.ordop
  obtain ⟨z, rfl, h₄'⟩ := h₄.one
  refine ⟨p₀, x, y, z, s₀, w₀, s₁, w₁, q, w₂, s₂, op, rfl, rfl, hw₀, hw₁, hw₂, h₂', ey, hop, h₄', ?_⟩
  rcases h₀.opt with h | h
  · exact .inl ⟨h.2, h.1⟩
  · obtain ⟨ks, rfl, h', _⟩ := h.call
    obtain ⟨s, w, t, p₁, p₂, rfl, hw, rfl, h₁, h₂⟩ := D.then h'
    obtain ⟨u, rfl, h₁'⟩ := h₁.one
    obtain ⟨ks, rfl, h₂', _⟩ := h₂.call
    obtain ⟨rfl, rfl⟩ := D.lit h₂'
    exact .inr ⟨u, _, s, s, w, rfl, rfl, hw, rfl, h₁'⟩

theorem order_back {s : Tx} {p : Pair} {a : Stm} (h : D U OneArg (.call .order) s [p]) (e : cOrder true p = .ok a) : LStm U a s := by
  obtain ⟨ks, e', h', _⟩ := h.call
  cases e'
  obtain ⟨w₁, s, rfl, hw₁, h₁⟩ := D.lit_then h'
  obtain ⟨q, w₂, s, p₁, p₂, rfl, hw₂, rfl, hq, h₂⟩ := h₁.then
  obtain ⟨b, w₃, s, p₂, p₃, rfl, hw₃, rfl, hb, h₃⟩ := h₂.then
  obtain ⟨s, w₄, tl, p₃, p₄, rfl, hw₄, rfl, h₄, h₅⟩ := h₃.then
  obtain ⟨x, k, rfl, eq, hq'⟩ := hq.q
  obtain ⟨y, v, rfl, ev, hv⟩ := hb.bnds
  obtain ⟨l, el, hl⟩ := h₅.opts
  have key : ∃ s', D U OneArg innerOrder s' p₃ ∧ ∀ g t₁ op t₂, LOrder U g t₁ op t₂ s' → LOrder U g t₁ op t₂ s := by
    rcases h₄.alt with h | h
    · exact ⟨s, h, fun _ _ _ _ h => h⟩
    · obtain ⟨w, s, rfl, hw, h⟩ := h.lit_then
      obtain ⟨s', w', rfl, hw', h⟩ := h.then_lit
      exact ⟨s', h, fun g t₁ op t₂ h => .br g t₁ t₂ op w s' w' hw h hw'⟩
  obtain ⟨s', hI, hout⟩ := key
  obtain ⟨g, x₁, y₁, z₁, s₀, w₀, s₁, w₁', q', w₂', s₂, op, rfl, rfl, hw₀, hw₁', hw₂', h₂', eop, hop, h₄', hg⟩ := hI.innerOrder
  obtain ⟨_, e⟩ := chk_ok e
  rcases hg with ⟨rfl, rfl⟩ | ⟨u, o, t, s', w', rfl, rfl, hw', _, hu⟩
  · have hx₁ : x₁.rule ≠ .order_guard := by
      obtain ⟨ks, e, _⟩ := h₂'.call; cases e; simp [Pair.rule]
    simp only [Pair.kids, List.cons_append, List.nil_append, if_neg hx₁] at e
    obtain ⟨_, e', e⟩ := bind_ok e
    rw [eq] at e'; cases e'
    obtain ⟨_, e', e⟩ := bind_ok e
    rw [ev] at e'; cases e'
    obtain ⟨t₁, e₁, e⟩ := bind_ok e
    obtain ⟨_, e', e⟩ := bind_ok e
    rw [eop] at e'; cases e'
    obtain ⟨t₂, e₂, e⟩ := bind_ok e
    obtain ⟨_, e', e⟩ := bind_ok e
    rw [el] at e'; cases e'
    cases e
    exact .order k v none t₁ t₂ op l w₁ q w₂ b w₃ s w₄ tl hw₁ hq' hw₂ hv hw₃
      (hout _ _ _ _ (.mk none t₁ t₂ op [] w₀ s₁ w₁' q' w₂' s₂ .none hw₀ (term_back h₂' e₁) hw₁' hop hw₂' (term_back h₄' e₂))) hw₄ hl
  · simp only [Pair.kids, Pair.rule, List.cons_append, List.nil_append, if_true] at e
    obtain ⟨_, e', e⟩ := bind_ok e
    rw [eq] at e'; cases e'
    obtain ⟨_, e', e⟩ := bind_ok e
    rw [ev] at e'; cases e'
    obtain ⟨t₀, e₀, e⟩ := bind_ok e
    obtain ⟨t₁, e₁, e⟩ := bind_ok e
    obtain ⟨_, e', e⟩ := bind_ok e
    rw [eop] at e'; cases e'
    obtain ⟨t₂, e₂, e⟩ := bind_ok e
    obtain ⟨_, e', e⟩ := bind_ok e
    rw [el] at e'; cases e'
    cases e
    exact .order k v (some t₀) t₁ t₂ op l w₁ q w₂ b w₃ s w₄ tl hw₁ hq' hw₂ hv hw₃
      (hout _ _ _ _ (.mk (some t₀) t₁ t₂ op _ w₀ s₁ w₁' q' w₂' s₂ (.some t₀ s' w' (term_back hu e₀) hw') hw₀ (term_back h₂' e₁) hw₁' hop hw₂'
        (term_back h₄' e₂))) hw₄ hl

theorem assert_back {kw : AKind} {r : Rule} {s : Tx} {p : Pair} {a : Stm} (hr : gram U r = (.lit kw.kw ~~ .call .assertion_inner))
    (hk : r = .assertion ∧ kw = .assert ∨ r = .query ∧ kw = .query ∨ r = .lemma ∧ kw = .lemma)
    (h : D U OneArg (.call r) s [p]) (e : cAssert true p = .ok a) : LStm U a s := by
  obtain ⟨ks, e', h', _⟩ := h.call
  cases e'
  rw [hr] at h'
  obtain ⟨k, rfl⟩ := inner_ex h'
  obtain ⟨_, e⟩ := chk_ok e
  rcases hk with ⟨rfl, rfl⟩ | ⟨rfl, rfl⟩ | ⟨rfl, rfl⟩ <;> simp only [Pair.kids, Pair.rule] at e <;> obtain ⟨x, ex, e⟩ := bind_ok e <;> cases e <;>
    exact inner_back h' ex

theorem stm_back {s : Tx} {p : Pair} {a : Stm} (h : D U OneArg (.call .content) s [p]) (e : cStm true p = .ok a) : LStm U a s := by
  obtain ⟨ks, e', h', _⟩ := h.call
  cases e'
  simp only [cStm, cInside] at e
  obtain ⟨_, g⟩ := chk_ok e
  clear e
  simp only [gram, choice] at h'
  rcases h'.alt with h | h
  · obtain ⟨x, rfl, hx⟩ := h.one
    obtain ⟨ks, e', h₁, _⟩ := hx.call
    cases e'
    simp only [Pair.kids, Pair.rule] at g
    simp only [cDeclaration, cInside] at g
    obtain ⟨_, g⟩ := chk_ok g
    simp only [gram, choice] at h₁
    rcases h₁.alt with h | h
    · obtain ⟨x, rfl, hx'⟩ := h.one
      have : x.rule = .declare_type := by obtain ⟨ks, e, _⟩ := hx'.call; cases e; rfl
      simp only [Pair.kids, this] at g
      exact type_back hx' g
    rcases h.alt with h | h
    · obtain ⟨x, rfl, hx'⟩ := h.one
      have : x.rule = .declare_function := by obtain ⟨ks, e, _⟩ := hx'.call; cases e; rfl
      simp only [Pair.kids, this] at g
      exact func_back hx' g
    · obtain ⟨x, rfl, hx'⟩ := h.one
      have : x.rule = .declare_cell := by obtain ⟨ks, e, _⟩ := hx'.call; cases e; rfl
      simp only [Pair.kids, this] at g
      exact cell_back hx' g
  rcases h.alt with h | h
  · obtain ⟨x, rfl, hx⟩ := h.one
    have : x.rule = .step := by obtain ⟨ks, e, _⟩ := hx.call; cases e; rfl
    simp only [Pair.kids, this] at g
    exact step_back hx g
  rcases h.alt with h | h
  · obtain ⟨x, rfl, hx⟩ := h.one
    have : x.rule = .assertion := by obtain ⟨ks, e, _⟩ := hx.call; cases e; rfl
    simp only [Pair.kids, this] at g
    exact assert_back (kw := .assert) (r := .assertion) rfl (by simp) hx g
  rcases h.alt with h | h
  · obtain ⟨x, rfl, hx⟩ := h.one
    have : x.rule = .order := by obtain ⟨ks, e, _⟩ := hx.call; cases e; rfl
    simp only [Pair.kids, this] at g
    exact order_back hx g
  rcases h.alt with h | h
  · obtain ⟨x, rfl, hx⟩ := h.one
    have : x.rule = .query := by obtain ⟨ks, e, _⟩ := hx.call; cases e; rfl
    simp only [Pair.kids, this] at g
    exact assert_back (kw := .query) (r := .query) rfl (by simp) hx g
  rcases h.alt with h | h
  · obtain ⟨x, rfl, hx⟩ := h.one
    have : x.rule = .lemma := by obtain ⟨ks, e, _⟩ := hx.call; cases e; rfl
    simp only [Pair.kids, this] at g
    exact assert_back (kw := .lemma) (r := .lemma) rfl (by simp) hx g
  rcases h.alt with h | h
  · obtain ⟨x, rfl, hx⟩ := h.one
    have : x.rule = .assertion_crypto := by obtain ⟨ks, e, _⟩ := hx.call; cases e; rfl
    simp only [Pair.kids, this] at g
    exact crypto_back hx g
  · obtain ⟨x, rfl, hx⟩ := h.one
    have : x.rule = .mlet := by obtain ⟨ks, e, _⟩ := hx.call; cases e; rfl
    simp only [Pair.kids, this] at g
    exact mac_back hx g

/-! ### Files -/

theorem D.stm1 {s : Tx} {p : List Pair} (h : D U OneArg (.call .content ~~ .opt (.lit c!";")) s p) :
    ∃ y s₁ w sc, p = [y] ∧ y.rule = .content ∧ s = s₁ ++ (w ++ sc) ∧ Blank w ∧ (sc = [] ∨ sc = c!";") ∧
      D U OneArg (.call .content) s₁ [y] := by
  obtain ⟨s, w', sc, p₁, p₂, rfl, hw', rfl, h, hsc⟩ := h.then
  obtain ⟨y, rfl, hy⟩ := h.one
  have hr : y.rule = .content := by obtain ⟨ks, e, _⟩ := hy.call; cases e; rfl
  rcases hsc.opt with ⟨rfl, rfl⟩ | h
  · exact ⟨y, s, w', [], rfl, hr, rfl, hw', .inl rfl, hy⟩
  · obtain ⟨rfl, rfl⟩ := h.lit
    exact ⟨y, s, w', _, rfl, hr, rfl, hw', .inr rfl, hy⟩

theorem stms_back : ∀ (L : List ((Tx × Tx) × List Pair)) {l : List Stm} {w : Tx}, Blank w →
    (∀ x ∈ L, Blank x.1.1 ∧ D U OneArg (.call .content ~~ .opt (.lit c!";")) x.1.2 x.2) →
    cAll (cStm true) ((L.map Prod.snd).flatten.filter fun p => p.rule = .content) = .ok l →
    LStms U l ((L.map fun x => x.1.1 ++ x.1.2).flatten ++ w) := by
  intro L
  induction L with
  | nil => intro l w hw _ e; cases e; exact .nil w hw
  | cons x L ih =>
    intro l w hw hL e
    obtain ⟨hb, hx⟩ := hL x List.mem_cons_self
    obtain ⟨y, s, w', sc, e₂, this, e₁, hw', hsc', hy⟩ := hx.stm1
    obtain ⟨⟨w₁, x₁⟩, p⟩ := x
    simp only at e₁ e₂ hb
    subst e₁ e₂
    simp only [List.map_cons, List.flatten_cons, List.append_nil, List.cons_append, List.nil_append, List.filter_cons, this,
      decide_true, if_true] at e
    obtain ⟨a, ea, e⟩ := bind_ok e
    obtain ⟨l', el, e⟩ := bind_ok e
    cases e
    have := LStms.cons (U := U) a l' w₁ s w' sc _ hb (stm_back hy ea) hw' hsc' (ih hw (fun y hy => hL y (List.mem_cons_of_mem _ hy)) el)
    simpa using this

theorem LStms.lead {l : List Stm} {w s : Tx} (hw : Blank w) (h : LStms U l s) : LStms U l (w ++ s) := by
  cases h with
  | nil _ h => exact .nil _ (hw.append h)
  | cons a l w₁ s w' sc r h₁ h₂ h₃ h₄ h₅ =>
    have := LStms.cons (U := U) a l (w ++ w₁) s w' sc r (hw.append h₁) h₂ h₃ h₄ h₅
    simpa using this

end

/-- A debug build reads what stands in the text: if it reads these statements, the text says them, in this order and nothing else, apart
from blanks and comments; provided that `msg!` and `cond!` have at most one argument (the others are dropped). -/
theorem C75_read_back (U : Char → Bool) (s : Tx) (p : Pair) (l : List Stm) (hp : Parses U s p) (hg : ∀ q, Within q p → OneArg q)
    (hl : Reads true U s (.ok l)) : LStms U l s := by
  have hg : Every OneArg p := every_of _ (Nat.lt_succ_self _) hg
  obtain ⟨n, hn⟩ := hl
  obtain ⟨t, m, hm⟩ := hp
  have hn := hn (max n m) (Nat.le_max_left n m)
  have hm := hm (max n m) (Nat.le_max_right n m)
  simp only [readFile, hm] at hn
  have hn : cAll (cStm true) (p.kids.filter fun p => p.rule = .content) = .ok l := by simpa using hn
  obtain ⟨s', rfl, hd⟩ := run_der _ hm
  have hD : D U OneArg (.call .file) s' [p] := ⟨⟨t, hd⟩, by simpa using hg⟩
  obtain ⟨ks, e, h, _⟩ := hD.call
  cases e
  cases hd with
  | call hd =>
    obtain ⟨s₁, w, s₂, p₁, p₂, rfl, hw, rfl, h₁, h₂⟩ := der_then hd
    cases h₁
    obtain ⟨s₃, w', s₄, p₃, p₄, rfl, hw', rfl, h₃, h₄⟩ := der_then h₂
    cases h₄ with
    | call h₄ =>
      cases h₄ with
      | neg hno =>
        have ht : t = [] := by
          cases t with
          | nil => rfl
          | cons c t => exact absurd (no_chr_inv hno) (by simp)
        subst ht
        have h₃ : D U OneArg (many1 (.call .content ~~ .opt (.lit c!";"))) s₃ p₃ := ⟨⟨_, h₃⟩, fun k hk => by
          cases hg with
          | node _ _ _ _ h => exact h k (by simp [hk])⟩
        obtain ⟨u, v, u', p₅, p₆, rfl, hv, rfl, h₅, h₆⟩ := D.then h₃
        obtain ⟨L, rfl, rfl, hL⟩ := h₆.many
        have hfil : ∀ q : List Pair, (q ++ [Pair.node .EOI [] []]).filter (fun p => decide (p.rule = .content)) =
            q.filter fun p => decide (p.rule = .content) := by
          intro q; rw [List.filter_append]; simp [Pair.rule]
        obtain ⟨y, s, x, sc, rfl, hy, rfl, hx, hsc, hD⟩ := h₅.stm1
        simp only [Pair.kids, List.nil_append, hfil] at hn
        simp only [List.cons_append, List.nil_append, List.filter_cons, hy, decide_true, if_true] at hn
        obtain ⟨a, ea, hn⟩ := bind_ok hn
        obtain ⟨l', el, hn⟩ := bind_ok hn
        cases hn
        have := LStms.cons (U := U) a l' w s x sc _ hw (stm_back hD ea) hx hsc ((stms_back L hw' hL el).lead hv)
        simpa using this

/-! ### Both builds -/

/-- What the first one gives, the second one does. -/
def Up {α : Type} (o o' : Out α) : Prop := ∀ a, o = .ok a → o' = .ok a

theorem Up.refl {α : Type} (o : Out α) : Up o o := fun _ h => h
theorem Up.bind {α β : Type} {o o' : Out α} {f f' : α → Out β} (h : Up o o') (hf : ∀ a, Up (f a) (f' a)) : Up (o.bind f) (o'.bind f') := by
  intro b hb
  obtain ⟨a, e, hb⟩ := bind_ok hb
  rw [h a e]
  exact hf a b hb
theorem Up.bind' {α β : Type} {o o' : Out α} {f : α → Out β} (h : Up o o') : Up (o.bind f) (o'.bind f) := h.bind fun _ => .refl _
theorem Up.chk {α : Type} {p : Pair} {rs : List Rule} {k k' : Out α} (h : Up k k') : Up (chk true p rs k) (chk false p rs k') := by
  intro a ha
  simpa [Txt2.chk] using h a (chk_ok ha).2
theorem Up.all {α : Type} {f f' : Pair → Out α} (h : ∀ p, Up (f p) (f' p)) : ∀ l, Up (cAll f l) (cAll f' l) := by
  intro l
  induction l with
  | nil => exact .refl _
  | cons p l ih => exact (h p).bind fun a => ih.bind'

theorem up_ident (p : Pair) : Up (cIdent true p) (cIdent false p) := .chk (.refl _)
theorem up_name (r : Rule) (p : Pair) : Up (cName true r p) (cName false r p) := by
  refine .chk ?_
  split
  · exact .refl _
  · exact up_ident _
theorem up_var (p : Pair) : Up (cVar true p) (cVar false p) := .chk (.refl _)
theorem up_bnd (p : Pair) : Up (cBnd true p) (cBnd false p) := by
  refine .chk ?_
  split
  · exact (up_var _).bind fun v => (up_name _ _).bind'
  · exact .refl _
theorem up_bnds (p : Pair) : Up (cBnds true p) (cBnds false p) := .chk (.all up_bnd _)
theorem up_one {α : Type} (r : Rule) (f : Rule → Option α) (p : Pair) : Up (cOne true r f p) (cOne false r f p) := .chk (.refl _)

/-- Shorter pairs of terms are read alike. -/
def UpT (n : Nat) : Prop := ∀ p, sizeOf p < n → Up (cTerm true p) (cTerm false p)

theorem UpT.terms {n : Nat} (H : UpT n) : ∀ l, sizeOf l < n → Up (cTerms true l) (cTerms false l) := by
  intro l
  induction l with
  | nil => intro _; rw [cTerms, cTerms]; exact .refl _
  | cons p l ih =>
    intro hn
    simp at hn
    rw [cTerms.eq_def, cTerms.eq_def]
    exact (H p (by omega)).bind fun a => (ih (by omega)).bind'

theorem UpT.rest {n : Nat} (H : UpT n) (o : Op) : ∀ (m : Nat) l, l.length ≤ m → sizeOf l < n →
    Up (cInfixRest true o l) (cInfixRest false o l) := by
  intro m
  induction m with
  | zero => intro l hl; cases l with | nil => intro _; rw [cInfixRest, cInfixRest]; exact .refl _ | cons => simp at hl
  | succ m ih =>
    intro l hl hn
    rw [cInfixRest.eq_def, cInfixRest.eq_def]
    match l with
    | [] => exact .refl _
    | [op] => exact (up_one _ _ _).bind'
    | op :: t :: l =>
      simp at hn hl
      refine (up_one _ _ _).bind fun o' => ?_
      split
      · exact (H t (by omega)).bind fun _ => (ih l (by omega) (by omega)).bind'
      · exact .refl _

theorem UpT.appl {n : Nat} (H : UpT n) (l : List Pair) (hn : sizeOf l < n) : Up (cAppl true l) (cAppl false l) := by
  match l with
  | [] => rw [cAppl, cAppl]; exact .refl _
  | [x] => rw [cAppl, cAppl]; exact .refl _
  | x :: a :: l =>
    intro b hb
    simp only [cAppl] at hb ⊢
    simp at hn
    split at hb
    · cases hb
    · cases hb
    · obtain ⟨_, _, h⟩ := bind_ok hb; cases h
    · rename_i args h
      rw [H.terms _ (by simp; omega) _ h]
      exact (up_name _ _).bind' b hb

theorem UpT.macro {n : Nat} (H : UpT n) (l : List Pair) (hn : sizeOf l < n) : Up (cMacro true l) (cMacro false l) := by
  match l with
  | [] => rw [cMacro, cMacro]; exact .refl _
  | x :: l =>
    simp at hn
    rw [cMacro.eq_def, cMacro.eq_def]
    refine (up_name _ _).bind fun m => ?_
    cases mkind m with
    | other => exact (H.terms _ (by omega)).bind'
    | _ =>
      simp only
      match l with
      | [] => exact .refl _
      | .node r₁ _ [] :: l =>
        intro a ha; simp at ha
      | .node r₁ _ (.node r₂ _ [] :: l₁) :: l =>
        intro a ha; simp at ha
      | .node r₁ _ (.node r₂ _ (.node r₃ _ [] :: l₂) :: l₁) :: l =>
        intro a ha; simp at ha
      | .node r₁ _ (.node r₂ _ (.node r₃ _ (.node r₄ _ ks₄ :: l₃) :: l₂) :: l₁) :: l =>
        intro a ha
        simp only [Bool.true_and, Bool.false_and, Bool.false_eq_true, if_false] at ha ⊢
        simp at hn
        split at ha
        · cases ha
        split at ha
        · cases ha
        split at ha
        · cases ha
        split at ha
        · cases ha
        exact (H.appl ks₄ (by omega)).bind' a ha

theorem UpT.let {n : Nat} (H : UpT n) (l : List Pair) (hn : sizeOf l < n) : Up (cLet true l) (cLet false l) := by
  rw [cLet.eq_def, cLet.eq_def]
  match l with
  | [v, x, y] => simp at hn; exact (up_bnd _).bind fun _ => (H x (by omega)).bind fun _ => (H y (by omega)).bind'
  | [] | [_] | [_, _] | _ :: _ :: _ :: _ :: _ => exact .refl _
theorem UpT.if {n : Nat} (H : UpT n) (l : List Pair) (hn : sizeOf l < n) : Up (cIf true l) (cIf false l) := by
  rw [cIf.eq_def, cIf.eq_def]
  match l with
  | [v, x, y] => simp at hn; exact (H v (by omega)).bind fun _ => (H x (by omega)).bind fun _ => (H y (by omega)).bind'
  | [] | [_] | [_, _] | _ :: _ :: _ :: _ :: _ => exact .refl _
theorem UpT.quant {n : Nat} (H : UpT n) (l : List Pair) (hn : sizeOf l < n) : Up (cQuantifier true l) (cQuantifier false l) := by
  rw [cQuantifier.eq_def, cQuantifier.eq_def]
  match l with
  | [v, x, y] => simp at hn; exact (up_one _ _ _).bind fun _ => (up_bnds _).bind fun _ => (H y (by omega)).bind'
  | [] | [_] | [_, _] | _ :: _ :: _ :: _ :: _ => exact .refl _
theorem UpT.find {n : Nat} (H : UpT n) (l : List Pair) (hn : sizeOf l < n) : Up (cFind true l) (cFind false l) := by
  rw [cFind.eq_def, cFind.eq_def]
  match l with
  | [u, v, x, y] => simp at hn; exact (up_bnds _).bind fun _ => (H v (by omega)).bind fun _ => (H x (by omega)).bind fun _ => (H y (by omega)).bind'
  | [] | [_] | [_, _] | [_, _, _] | _ :: _ :: _ :: _ :: _ :: _ => exact .refl _
theorem UpT.infix {n : Nat} (H : UpT n) (l : List Pair) (hn : sizeOf l < n) : Up (cInfix true l) (cInfix false l) := by
  rw [cInfix.eq_def, cInfix.eq_def]
  match l with
  | x :: o :: y :: l =>
    simp at hn
    exact (H x (by omega)).bind fun _ => (up_one _ _ _).bind fun _ => (H y (by omega)).bind fun _ => (H.rest _ _ l (Nat.le_refl _) (by omega)).bind'
  | [] => exact .refl _
  | [x] => simp at hn; exact (H x (by omega)).bind'
  | [x, y] => simp at hn; exact (H x (by omega)).bind fun _ => (up_one _ _ _).bind'

theorem upT : ∀ n, UpT n := by
  intro n
  induction n with
  | zero => intro p h; omega
  | succ n H =>
    intro p hn
    obtain ⟨r, s, ks⟩ := p
    intro a ha
    rw [cTerm.eq_def] at ha ⊢
    simp only [Bool.true_and, Bool.false_and, Bool.false_eq_true, if_false] at ha ⊢
    split at ha
    · cases ha
    split at ha
    · split at ha
      · cases ha
      simp at hn
      split at ha
      · simp at hn; exact H.infix _ (by omega) a ha
      · simp at hn
        split at ha
        · simp at hn; exact H.let _ (by omega) a ha
        · simp at hn; exact H.if _ (by omega) a ha
        · simp at hn; exact H.find _ (by omega) a ha
        · simp at hn; exact H.quant _ (by omega) a ha
        · simp at hn; exact (H.appl _ (by omega)).bind' a ha
        · simp at hn; exact H.macro _ (by omega) a ha
        all_goals cases ha
      all_goals cases ha
    · cases ha

theorem up_term (p : Pair) : Up (cTerm true p) (cTerm false p) := upT _ p (Nat.lt_succ_self _)
theorem up_app (p : Pair) : Up (cApplication true p) (cApplication false p) := .chk ((upT _).appl _ (Nat.lt_succ_self _))
theorem up_options (p : Pair) : Up (cOptions true p) (cOptions false p) := .chk (.all up_ident _)
theorem up_opts (l : List Pair) : Up (cOpts true l) (cOpts false l) := by
  match l with
  | [] => exact .refl _
  | [o] => exact up_options o
  | o :: _ :: _ => exact (up_options o).bind'
theorem up_funArgs (p : Pair) : Up (cFunArgs true p) (cFunArgs false p) := .chk (.all (up_name _) _)
theorem up_fun (r : Rule) (mk) (p : Pair) : Up (cFun true r mk p) (cFun false r mk p) := by
  refine .chk ?_
  split
  · exact (up_name _ _).bind fun _ => (up_funArgs _).bind fun _ => (up_name _ _).bind fun _ => (up_opts _).bind'
  · exact .refl _
theorem up_type (p : Pair) : Up (cType true p) (cType false p) := by
  refine .chk ?_
  split
  · exact (up_name _ _).bind fun _ => (up_opts _).bind'
  · exact .refl _
theorem up_inside {α : Type} (rs : List Rule) {f f' : Pair → Out α} (h : ∀ p, Up (f p) (f' p)) (p : Pair) :
    Up (cInside true rs f p) (cInside false rs f' p) := by
  refine .chk ?_
  split
  · exact .refl _
  · exact h _
  · exact .refl _
theorem up_decl (p : Pair) : Up (cDeclaration true p) (cDeclaration false p) := by
  refine up_inside _ (fun k => ?_) p
  split
  · exact up_type k
  · exact up_fun _ _ k
  · exact up_fun _ _ k
  · exact .refl _
theorem up_asg (p : Pair) : Up (cAsg true p) (cAsg false p) := by
  refine .chk ?_
  split
  · exact (up_app _).bind fun _ => (up_term _).bind'
  · exact (up_app _).bind fun _ => (up_term _).bind fun _ => (up_bnds _).bind'
  · exact .refl _
theorem up_asgs (p : Pair) : Up (cAsgs true p) (cAsgs false p) := .chk (.all up_asg _)
theorem up_stepEnd (a b : Option Pair) : Up (cStepEnd true a b) (cStepEnd false a b) := by
  have ho : ∀ r : Option Pair, Up (match r with | none => .ok [] | some r => cOptions true r)
      (match r with | none => .ok [] | some r => cOptions false r) := by
    intro r; cases r with
    | none => exact .refl _
    | some r => exact up_options r
  cases a with
  | none => exact (ho b).bind'
  | some a =>
    intro r hr
    simp only [cStepEnd] at hr ⊢
    split at hr
    · cases hr
    · cases hr
    · rename_i he
      obtain ⟨o, eo, _⟩ := bind_ok hr
      have h₁ := (chk_ok eo).1
      simp only [cAsgs, chk, Bool.true_and] at he
      split at he
      · cases he
      · rename_i h₂
        simp only [List.contains_cons, List.contains_nil, Bool.or_false, beq_iff_eq, Bool.not_eq_true, bne_eq_false_iff_eq,
          Bool.not_eq_false'] at h₁ h₂
        rw [h₁] at h₂; cases h₂
    · rename_i as h
      rw [up_asgs a _ h]
      exact (ho b).bind' r hr
theorem up_step (p : Pair) : Up (cStep true p) (cStep false p) := by
  refine .chk ?_
  split
  · exact (up_name _ _).bind fun _ => (up_bnds _).bind fun _ => (up_term _).bind fun _ => (up_term _).bind fun _ => (up_stepEnd _ _).bind'
  · exact .refl _
theorem up_assertion (p : Pair) : Up (cAssertion true p) (cAssertion false p) := by
  refine .chk ?_
  split
  · exact (up_term _).bind fun _ => (up_opts _).bind'
  · exact .refl _
theorem up_assert (p : Pair) : Up (cAssert true p) (cAssert false p) := by
  refine .chk ?_
  split
  · exact .refl _
  · split
    · exact (up_assertion _).bind'
    · exact (up_assertion _).bind'
    · exact (up_assertion _).bind'
    · exact .refl _
theorem up_crypto (p : Pair) : Up (cCrypto true p) (cCrypto false p) := by
  refine .chk ?_
  split
  · exact .refl _
  · refine (up_ident _).bind fun _ => ?_
    split
    · split
      · exact (up_options _).bind fun _ => (Up.all (up_name _) _).bind'
      · exact (Up.all (up_name _) _).bind'
    · exact .refl _
theorem up_order (p : Pair) : Up (cOrder true p) (cOrder false p) := by
  refine .chk ?_
  split
  · refine (up_one _ _ _).bind fun _ => (up_bnds _).bind fun _ => ?_
    split
    · split
      · exact .refl _
      · refine (up_term _).bind fun _ => ?_
        dsimp only
        split
        · exact (up_term _).bind fun _ => (up_one _ _ _).bind fun _ => (up_term _).bind fun _ => (up_opts _).bind'
        · exact .refl _
    · dsimp only
      split
      · exact (up_term _).bind fun _ => (up_one _ _ _).bind fun _ => (up_term _).bind fun _ => (up_opts _).bind'
      · exact .refl _
  · exact .refl _
theorem up_mac (p : Pair) : Up (cMac true p) (cMac false p) := by
  refine .chk ?_
  split
  · exact (up_name _ _).bind fun _ => (up_bnds _).bind fun _ => (up_term _).bind fun _ => (up_opts _).bind'
  · exact .refl _
theorem up_stm (p : Pair) : Up (cStm true p) (cStm false p) := by
  refine up_inside _ (fun k => ?_) p
  split
  · exact up_decl k
  · exact up_step k
  · exact up_order k
  · exact up_crypto k
  · exact up_assert k
  · exact up_assert k
  · exact up_assert k
  · exact up_mac k
  · exact .refl _

/-- What a debug build reads, a release build reads too: the debug assertions only reject more. -/
theorem C75_builds_agree (U : Char → Bool) (s : Tx) (l : List Stm) (h : Reads true U s (.ok l)) : Reads false U s (.ok l) := by
  obtain ⟨n, h⟩ := h
  refine ⟨n, fun m hm => ?_⟩
  have h := h m hm
  simp only [readFile] at h ⊢
  split at h
  · cases h
  · cases h
  · split at h
    · cases h
    · simp only [Option.some.injEq] at h ⊢
      exact Up.all up_stm _ l h

/-- If the text is a file for the grammar and has none of the mistakes of `Good`, then both builds read the same statements, and the text
says them. -/
theorem C75_read_back_good (U : Char → Bool) (s : Tx) (p : Pair) (hp : Parses U s p)
    (hg : ∀ q, Within q p → Good true true q ∧ OneArg q) :
    ∃ l, Reads true U s (.ok l) ∧ Reads false U s (.ok l) ∧ LStms U l s := by
  obtain ⟨l, hl⟩ := C74_accepts true U s p hp fun q hq => (hg q hq).1
  exact ⟨l, hl, C75_builds_agree U s l hl, C75_read_back U s p l hp (fun q hq => (hg q hq).2) hl⟩

/-- **C75, refuted without the condition.** Further arguments of `msg!` are dropped. -/
theorem C75_dropped_counterexample (U : Char → Bool) :
    Reads true U c!"assert msg!(s, f(t))" (.ok [.assert .assert (.msg (.ofList c!"s") []) []]) ∧
    Reads true U c!"assert msg!(s)" (.ok [.assert .assert (.msg (.ofList c!"s") []) []]) :=
  ⟨.at 120 (by with_unfolding_all rfl), .at 120 (by with_unfolding_all rfl)⟩

mutual
/-- Enough for the example: no macro has two arguments. -/
def oneArgs : Pair → Bool
  | .node r _ ks => (r != .macro_application || ks.length ≤ 2) && oneArgss ks
/-- All of them. -/
def oneArgss : List Pair → Bool
  | [] => true
  | k :: ks => oneArgs k && oneArgss ks
end

theorem oneArgss_mem : ∀ {ks : List Pair}, oneArgss ks = true → ∀ k ∈ ks, oneArgs k = true
  | [], _, _, hk => by cases hk
  | x :: ks, h, k, hk => by
    rw [oneArgss, Bool.and_eq_true] at h
    rcases List.mem_cons.1 hk with rfl | hk
    · exact h.1
    · exact oneArgss_mem h.2 k hk

theorem oneArgs_good {p q : Pair} (h : oneArgs p = true) (hq : Within q p) : OneArg q := by
  induction hq with
  | kid r s ks k hk _ ih =>
    rw [oneArgs.eq_def] at h
    simp only [Bool.and_eq_true] at h
    exact ih (oneArgss_mem h.2 k hk)
  | here =>
    obtain ⟨r, s, ks⟩ := q
    rw [oneArgs.eq_def] at h
    simp only [Bool.and_eq_true] at h
    intro hr n l hk _
    simp only [Pair.rule, Pair.kids] at hr hk
    subst hr hk
    simpa using h.1

-- The hypotheses of `C75_read_back` can be met: a step with an assignment and options, and a query with `msg!`.
example (U : Char → Bool) : ∃ l, LStms U l c!"step s(i:T) {true} {f(i)} {c <- (a && b)} [o] /* q */ query msg!(s(i),)" := by
  have h : ∃ p t, run (gram U) 120 (.call .file) c!"step s(i:T) {true} {f(i)} {c <- (a && b)} [o] /* q */ query msg!(s(i),)" =
      some (some ([p], t)) ∧ oneArgs p = true :=
    ⟨_, _, by with_unfolding_all rfl, by with_unfolding_all rfl⟩
  obtain ⟨p, t, hp, hs⟩ := h
  have hl : ∃ l, Reads true U c!"step s(i:T) {true} {f(i)} {c <- (a && b)} [o] /* q */ query msg!(s(i),)" (.ok l) :=
    ⟨_, .at 120 (by with_unfolding_all rfl)⟩
  obtain ⟨l, hl⟩ := hl
  exact ⟨l, C75_read_back U _ p l ⟨t, 120, fun m hm => run_le hp hm⟩ (fun q hq => oneArgs_good hs hq) hl⟩

end Txt2
end CV
