import Verif.Search
import Verif.UnifierOn
import Mathlib.Logic.Relation
/-
SPECIFICATION side of the search for instances (C25, C26, C30, C31): what it means that a value occurs in
an execution of the protocol. Nothing here models code.
-/
namespace CV
namespace Dep
variable {F D : Type}

/-- The structure reads equality, the connectives and truth as usual. -/
structure Sem (L : Lang F) (M : Str F D) : Prop where
  eq : ∀ a b, M.truth (M.fn L.eq [a, b]) ↔ a = b
  and : ∀ l, M.truth (M.fn L.and l) ↔ ∀ d ∈ l, M.truth d
  or : ∀ l, M.truth (M.fn L.or l) ↔ ∃ d ∈ l, M.truth d
  tru : M.truth (M.fn L.tru [])

/-- The order on time points. -/
def Lt (L : Lang F) (M : Str F D) (a b : D) : Prop := M.truth (M.fn L.lt [a, b])
def Le (L : Lang F) (M : Str F D) (a b : D) : Prop := Lt L M a b ∨ a = b

/-- A term that starts with `f` may be of sort `s`: its sort is `s`, or it is never known. -/
def MayBe (L : Lang F) (f : F) (s : Srt) : Prop := L.out f = some s ∨ (L.out f = none ∧ ∀ l, L.infer f l = none)

/-- The valuation gives the variables values of their sorts. -/
def InDom (M : Str F D) (vs : List Var) (σ : Valn D) : Prop := ∀ v ∈ vs, M.dom v.sort (σ v.id)

/-- The time point of a step whose parameters have the values `σ`. -/
def GStep.time (M : Str F D) (s : GStep F) (σ : Valn D) : D := M.fn s.fn (s.vars.map (fun v => σ v.id))

/-- A term with values for its variables. -/
abbrev Clo (F D : Type) := Fm F × Valn D

/-- Looking inside a term without crossing a macro: into a part of it, or into the body of a quantifier
symbol, for some values of the variables it binds. -/
inductive Plain (L : Lang F) (M : Str F D) (part : Fm F → Fm F → Prop) : Clo F D → Clo F D → Prop
  | part {t a τ} (h : part t a) : Plain L M part (t, τ) (a, τ)
  | taq {f args bound free content c τ σ} (h : L.kind f = .taq bound free content) (hc : c ∈ content)
      (hf : free.map (fun v => σ v.id) = args.map (Fm.eval M τ)) (hb : InDom M bound σ) :
      Plain L M part (.app f args, τ) (c, σ)

/-- From the message or condition of a time point to the message or condition of the step it is. -/
inductive StepOf (L : Lang F) (steps : List (GStep F)) (M : Str F D) : Clo F D → Clo F D → Prop
  | msg {f arg τ s σ} (h : L.kind f = .mac .msg) (hs : s ∈ steps) (hd : InDom M s.vars σ)
      (ht : Fm.eval M τ arg = s.time M σ) : StepOf L steps M (.app f [arg], τ) (s.message, σ)
  | cond {f arg τ s σ} (h : L.kind f = .mac .cond) (hs : s ∈ steps) (hd : InDom M s.vars σ)
      (ht : Fm.eval M τ arg = s.time M σ) : StepOf L steps M (.app f [arg], τ) (s.condition, σ)

/-- The term is a call of an input, of `exec` or of a cell, at some time. -/
inductive CallAt (L : Lang F) (M : Str F D) : Clo F D → MacroRef F → D → Prop
  | input {f args o τ} (h : L.kind f = .mac .input) (ho : args.getLast? = some o) :
      CallAt L M (.app f args, τ) .input (Fm.eval M τ o)
  | exec {f args o τ} (h : L.kind f = .mac .exec) (ho : args.getLast? = some o) :
      CallAt L M (.app f args, τ) .exec (Fm.eval M τ o)
  | cell {f args o c τ} (h : L.kind f = .cell c) (ho : args.getLast? = some o) :
      CallAt L M (.app f args, τ) (.cell c) (Fm.eval M τ o)

/-- What such a call gives access to: the input at `T` is computed from the messages and conditions of the
steps before `T`, `exec` at `T` from the conditions of the steps until `T`, and the value of a cell at `T`
is one that was stored until `T`. -/
inductive Yields (L : Lang F) (steps : List (GStep F)) (M : Str F D) : MacroRef F → D → Clo F D → Prop
  | inputMsg {s σ T} (hs : s ∈ steps) (hd : InDom M s.vars σ) (ht : Lt L M (s.time M σ) T) :
      Yields L steps M .input T (s.message, σ)
  | inputCond {s σ T} (hs : s ∈ steps) (hd : InDom M s.vars σ) (ht : Lt L M (s.time M σ) T) :
      Yields L steps M .input T (s.condition, σ)
  | exec {s σ T} (hs : s ∈ steps) (hd : InDom M s.vars σ) (ht : Le L M (s.time M σ) T) :
      Yields L steps M .exec T (s.condition, σ)
  | cell {c a σ T} (ha : a ∈ c.assigns) (hd : InDom M (a.step.vars ++ a.fresh) σ)
      (ht : Le L M (a.step.time M σ) T) : Yields L steps M (.cell c) T (a.content, σ)

/-- Looking inside a term without following inputs and cells. -/
def Local (L : Lang F) (steps : List (GStep F)) (M : Str F D) (part : Fm F → Fm F → Prop) (x y : Clo F D) : Prop :=
  Plain L M part x y ∨ StepOf L steps M x y

/-- Looking inside a term, following the macros in `X`. -/
def Inside (L : Lang F) (steps : List (GStep F)) (M : Str F D) (part : Fm F → Fm F → Prop) (X : MacroRef F → Prop)
    (x y : Clo F D) : Prop :=
  Local L steps M part x y ∨ ∃ r T, X r ∧ CallAt L M x r T ∧ Yields L steps M r T y

/-- `y` occurs in `x`. -/
def Occurs (L : Lang F) (steps : List (GStep F)) (M : Str F D) (part : Fm F → Fm F → Prop) (X : MacroRef F → Prop) :
    Clo F D → Clo F D → Prop := Relation.ReflTransGen (Inside L steps M part X)

/-- Evaluating `x` calls the macro `r` at time `T`, before any other input, `exec` or cell is followed. -/
def Calls (L : Lang F) (steps : List (GStep F)) (M : Str F D) (part : Fm F → Fm F → Prop) (x : Clo F D) (r : MacroRef F)
    (T : D) : Prop := ∃ y, Relation.ReflTransGen (Local L steps M part) x y ∧ CallAt L M y r T

/-- Well-formed protocols and quantifier symbols: contents have no first-order quantifier and only their own
variables, which are distinct. -/
structure ProtOK (L : Lang F) (steps : List (GStep F)) (cells : List (GCell F)) : Prop where
  message : ∀ s ∈ steps, NoQuant s.message ∧ ∀ v ∈ s.message.vars, v.id ∈ s.vars.map Var.id
  condition : ∀ s ∈ steps, NoQuant s.condition ∧ ∀ v ∈ s.condition.vars, v.id ∈ s.vars.map Var.id
  params : ∀ s ∈ steps, (s.vars.map Var.id).Nodup
  content : ∀ c ∈ cells, ∀ a ∈ c.assigns, NoQuant a.content ∧
    ∀ v ∈ a.content.vars, v.id ∈ (a.step.vars ++ a.fresh).map Var.id
  fresh : ∀ c ∈ cells, ∀ a ∈ c.assigns, ((a.step.vars ++ a.fresh).map Var.id).Nodup
  cells : ∀ f c, L.kind f = .cell c → c ∈ cells
  taq : ∀ f bound free content, L.kind f = .taq bound free content → ((free ++ bound).map Var.id).Nodup ∧
    ∀ c ∈ content, NoQuant c ∧ ∀ v ∈ c.vars, v.id ∈ (free ++ bound).map Var.id

/-- Time points and calls: the order is transitive, what a step computes refers to no later time, and
neither does what it stores. -/
structure Timed (L : Lang F) (steps : List (GStep F)) (cells : List (GCell F)) (M : Str F D)
    (part : Fm F → Fm F → Prop) : Prop where
  trans : ∀ a b c, Lt L M a b → Lt L M b c → Lt L M a c
  message : ∀ s ∈ steps, ∀ σ, InDom M s.vars σ → ∀ r T, Calls L steps M part (s.message, σ) r T →
    Le L M T (s.time M σ)
  condition : ∀ s ∈ steps, ∀ σ, InDom M s.vars σ → ∀ r T, Calls L steps M part (s.condition, σ) r T →
    Le L M T (s.time M σ)
  content : ∀ c ∈ cells, ∀ a ∈ c.assigns, ∀ σ, InDom M (a.step.vars ++ a.fresh) σ → ∀ r T,
    Calls L steps M part (a.content, σ) r T → Le L M T (a.step.time M σ)

/-- The answers of the dependency graph are enough: the steps are reported for the input, the answer for a
cell contains the cell and is closed under what assignments read; and if one of those reads an input,
it contains all that steps read. -/
structure GraphOK (L : Lang F) (steps : List (GStep F)) (cells : List (GCell F)) (G : PreGraph F) (M : Str F D)
    (part : Fm F → Fm F → Prop) : Prop where
  input : G.input.input = true
  found : ∀ c ∈ cells, ∃ anc, G.ancestors (.cell c) = some anc ∧ c ∈ anc.cells ∧
    (∀ d ∈ anc.cells, ∀ a ∈ d.assigns, ∀ σ e T, Calls L steps M part (a.content, σ) (.cell e) T → e ∈ anc.cells) ∧
    ∀ d ∈ anc.cells, ∀ a ∈ d.assigns, ∀ σ T, Calls L steps M part (a.content, σ) .input T →
      ∀ s ∈ steps, ∀ σ' e T', Calls L steps M part (s.message, σ') (.cell e) T' ∨
        Calls L steps M part (s.condition, σ') (.cell e) T' → e ∈ anc.cells

/-- The way of descending into terms reaches the parts: a part of a term is, after replacing variables, still
looked into, unless it is a variable. -/
structure Descends (A : Aux F) (part : Fm F → Fm F → Prop) : Prop where
  var : ∀ v a, ¬ part (.var v) a
  vars : ∀ t a, part t a → ∀ v ∈ a.vars, v ∈ t.vars
  down : ∀ t a, part t a → (∃ v, a = .var v) ∨ ∀ θ : Subst F, Subst.apply θ a ∈ A.nexts (Subst.apply θ t)

/-- Descending gives subterms. -/
def Shrinks (A : Aux F) : Prop :=
  ∀ t a, a ∈ A.nexts t → (NoQuant t → NoQuant a) ∧ ∀ v ∈ a.vars, v ∈ t.vars

end Dep
end CV
