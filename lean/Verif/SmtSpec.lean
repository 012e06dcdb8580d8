import Verif.Semantics
/-
SPECIFICATION side of the SMT output: reading a text as s-expressions, and the meaning of
s-expressions (SMT-LIB plus the Vampire commands). Nothing here models code.
-/
namespace CV
namespace SmtS
open Classical

abbrev Txt := List Char

/-! ### Lexing and parsing -/

inductive Tok
  | lp | rp | atom (s : Txt) | bad
  deriving DecidableEq

inductive SExp
  | atom (s : Txt)
  | list (l : List SExp)

/-- White space. -/
def ws (c : Char) : Bool := c = ' ' || c = '\n' || c = '\t' || c = '\r'

/-- End of a symbol. -/
def flush (cur : Txt) : List Tok := if cur = [] then [] else [.atom cur]

/-- The lexer: `some cur` inside a symbol read so far (or between symbols when empty), `none` inside
a comment. Quoted symbols and strings are not accepted. -/
def lex : Option Txt → Txt → List Tok
  | none, [] => []
  | some cur, [] => flush cur
  | none, c :: s => if c = '\n' then lex (some []) s else lex none s
  | some cur, c :: s =>
    if c = '(' then flush cur ++ .lp :: lex (some []) s
    else if c = ')' then flush cur ++ .rp :: lex (some []) s
    else if ws c then flush cur ++ lex (some []) s
    else if c = ';' then flush cur ++ lex none s
    else if c = '|' ∨ c = '"' then [.bad]
    else lex (some (cur ++ [c])) s

/-- The parser: `cur` holds the expressions read at the current level, `st` those of the enclosing
levels, all in reverse. -/
def parse : List Tok → List SExp → List (List SExp) → Option (List SExp)
  | [], cur, [] => some cur.reverse
  | [], _, _ :: _ => none
  | .bad :: _, _, _ => none
  | .atom a :: ts, cur, st => parse ts (.atom a :: cur) st
  | .lp :: ts, cur, st => parse ts [] (cur :: st)
  | .rp :: _, _, [] => none
  | .rp :: ts, cur, up :: st => parse ts (.list cur.reverse :: up) st

/-- The s-expressions of a text. -/
def read (t : Txt) : Option (List SExp) := parse (lex (some []) t) [] []

/-! ### Meaning -/

/-- Value tuples of the given sorts. -/
def Typed {S D : Type} (dom : S → D → Prop) : List S → List D → Prop
  | [], [] => True
  | s :: ss, d :: ds => dom s d ∧ Typed dom ss ds
  | _, _ => False

/-- Free datatype: the constructors `cs` (symbol, destructors and argument sorts) of sort `s` are
injective, different from each other and exhaustive, the destructors invert them. -/
structure DataSem {N S D : Type} (fn : N → List D → D) (dom : S → D → Prop) (s : S)
    (cs : List (N × List (N × S))) : Prop where
  typed : ∀ c ∈ cs, ∀ as, Typed dom (c.2.map (·.2)) as → dom s (fn c.1 as)
  inj : ∀ c ∈ cs, ∀ c' ∈ cs, ∀ as bs, Typed dom (c.2.map (·.2)) as → Typed dom (c'.2.map (·.2)) bs →
    fn c.1 as = fn c'.1 bs → c.1 = c'.1 ∧ as = bs
  cover : ∀ d, dom s d → ∃ c ∈ cs, ∃ as, Typed dom (c.2.map (·.2)) as ∧ fn c.1 as = d
  dest : ∀ c ∈ cs, ∀ as, Typed dom (c.2.map (·.2)) as → ∀ (i : Nat) (p : N × S) (a : D),
    c.2[i]? = some p → as[i]? = some a → fn p.1 [fn c.1 as] = a

/-- `f` is the subterm relation through the functions `gs`. -/
def SubtermSem {N D : Type} (fn : N → List D → D) (truth : D → Prop) (f : N) (gs : List N) : Prop :=
  ∀ g ∈ gs, ∀ (x : D) (as : List D), truth (fn f [x, fn g as]) ↔
    x = fn g as ∨ ∃ a ∈ as, truth (fn f [x, a])

/-- An interpretation of the symbols and sorts of a text. -/
structure Interp (D : Type) where
  fn : Txt → List D → D
  dom : Txt → D → Prop
  truth : D → Prop
  ofProp : Prop → D
  truth_ofProp : ∀ p, truth (ofProp p) ↔ p

/-- Values of the bound variables. -/
abbrev Env (D : Type) := Txt → Option D

def Env.set {D : Type} (e : Env D) (x : Txt) (d : D) : Env D := fun y => if y = x then some d else e y

def quantS {D : Type} (I : Interp D) (q : QKind) : List (Txt × Txt) → (Env D → Prop) → Env D → Prop
  | [], P, e => P e
  | (x, s) :: bs, P, e =>
    match q with
    | .all => ∀ d, I.dom s d → quantS I q bs P (e.set x d)
    | .ex => ∃ d, I.dom s d ∧ quantS I q bs P (e.set x d)

/-- `(x s)`. -/
def binder : SExp → Option (Txt × Txt)
  | .list [.atom x, .atom s] => some (x, s)
  | _ => none

/-- Adjacent elements are equal. -/
def chainEq {D : Type} : List D → Prop
  | a :: b :: l => a = b ∧ chainEq (b :: l)
  | _ => True

section
variable {D : Type} (I : Interp D)

/-- Meaning of `(h l..)`, `ds` being the meanings of `l`. -/
noncomputable def appS (h : Txt) (l : List SExp) (ds : List (Env D → D)) (e : Env D) : D :=
  let junk := I.fn [] []
  let vs := ds.map (· e)
  if h = "forall".toList then
    match l, ds with
    | [.list bs, _], [_, b] =>
      I.ofProp (quantS I .all (bs.filterMap binder) (fun e' => I.truth (b e')) e)
    | _, _ => junk
  else if h = "exists".toList then
    match l, ds with
    | [.list bs, _], [_, b] =>
      I.ofProp (quantS I .ex (bs.filterMap binder) (fun e' => I.truth (b e')) e)
    | _, _ => junk
  else if h = "and".toList then I.ofProp (∀ a ∈ vs, I.truth a)
  else if h = "or".toList then I.ofProp (∃ a ∈ vs, I.truth a)
  else if h = "=".toList then I.ofProp (chainEq vs)
  else if h = "distinct".toList then I.ofProp (vs.Pairwise (· ≠ ·))
  else if h = "not".toList then
    match vs with
    | [a] => I.ofProp (¬ I.truth a)
    | _ => junk
  else if h = "=>".toList then
    match vs with
    | [a, b] => I.ofProp (I.truth a → I.truth b)
    | _ => junk
  else if h = "ite".toList then
    match vs with
    | [c, a, b] => if I.truth c then a else b
    | _ => junk
  else if h = "subterm".toList then
    match l, vs with
    | [.atom f, _, _], [_, a, b] => I.fn f [a, b]
    | _, _ => junk
  else I.fn h vs

mutual
/-- Value of a term. -/
noncomputable def sem : SExp → Env D → D
  | .atom a, e => match e a with
    | some d => d
    | none =>
      if a = "true".toList then I.ofProp True
      else if a = "false".toList then I.ofProp False
      else I.fn a []
  | .list [], _ => I.fn [] []
  | .list (.list _ :: _), _ => I.fn [] []
  | .list (.atom h :: l), e => appS I h l (sems l) e
noncomputable def sems : List SExp → List (Env D → D)
  | [] => []
  | a :: as => sem a :: sems as
end

/-- The empty environment. -/
def noEnv : Env D := fun _ => none

def atomOf : SExp → Option Txt
  | .atom a => some a
  | .list _ => none

/-- `(c (d s) ..)`. -/
def consOf : SExp → Option (Txt × List (Txt × Txt))
  | .list (.atom c :: l) => some (c, l.filterMap binder)
  | _ => none

/-- `(s 0)`. -/
def sortOf : SExp → Option Txt
  | .list [.atom s, .atom _] => some s
  | _ => none

def conssOf : SExp → List (Txt × List (Txt × Txt))
  | .list l => l.filterMap consOf
  | _ => []

/-- What a command asks of an interpretation. -/
def cmdSem : SExp → Prop
  | .list [.atom h, a] =>
    if h = "assert".toList ∨ h = "assert-theory".toList then I.truth (sem I a noEnv)
    else if h = "assert-not".toList then ¬ I.truth (sem I a noEnv)
    else if h = "declare-rewrite".toList then
      match a with
      | .list [.atom _, .list bs, .list [.atom _, l, r]] =>
        quantS I .all (bs.filterMap binder) (fun e => sem I l e = sem I r e) noEnv
      | _ => False
    else h = "declare-subterm-relation".toList
  | .list (.atom h :: .atom s :: rest) =>
    if h = "assert-ground".toList then
      match rest with
      | [a] => I.truth (sem I a noEnv)
      | _ => False
    else if h = "declare-fun".toList then
      match rest with
      | [.list ss, .atom o] => ∀ as, Typed I.dom (ss.filterMap atomOf) as → I.dom o (I.fn s as)
      | _ => False
    else if h = "declare-sort".toList then ∃ d, I.dom s d
    else if h = "define-sort".toList then
      match rest with
      | [.list [], .atom t] => ∀ d, I.dom s d ↔ I.dom t d
      | _ => False
    else if h = "declare-subterm-relation".toList then SubtermSem I.fn I.truth s (rest.filterMap atomOf)
    else False
  | .list [.atom h, .list ss, .list cs] =>
    if h = "declare-datatypes".toList then
      ∀ p ∈ (ss.filterMap sortOf).zip (cs.map conssOf), DataSem I.fn I.dom p.1 p.2
    else False
  | .list [.atom h] => h = "check-sat".toList
  | _ => False

end
end SmtS
end CV
