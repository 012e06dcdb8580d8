/-
Specification: which surface terms are well sorted. The rules are those of a sorted language with two readings of each
term (the realms): as a term of the protocol (`sym`) or as its value (`ev`), where messages are bitstrings and
conditions are Booleans. Nothing here refers to expected sorts, cells or the order of elaboration, except for the
names that a `let` leaves behind (`leak`, see C20), which must not be reused.
-/
import Verif.ParserSpec
import Mathlib.Data.List.Forall2

namespace CV
namespace Prs

/-- Two sorts that are the same in a realm: where values are read, a message is a bitstring and a condition a
Boolean. -/
def Same : Realm → Srt → Srt → Prop
  | .sym, a, b => a = b
  | .ev, a, b => val a = val b
where
  val : Srt → Srt
    | .message => .bitstring
    | .condition => .bool
    | s => s

/-- The sort of formulas in a realm. -/
def propSort : Realm → Srt
  | .sym => .condition
  | .ev => .bool

/-- The sort of what an application of a function with output `o` stands for: a name stands for its message. -/
def outOf (o : Srt) : Srt := if o = .name then .message else o

/-- The names of a scope. -/
abbrev names (Γ : List (String × Srt)) : List String := Γ.map (·.1)

/-- A name that a binder can introduce: not in scope, not left behind by a `let`, and, if shadowing is forbidden, not
that of a function or a step. -/
structure NewName (E : Env) (Γ : List (String × Srt)) (D : List String) (x : String) : Prop where
  scope : x ∉ names Γ
  dead : x ∉ D
  decl : E.shadowing = true ∨ (E.functions x = none ∧ E.steps x = none)

/-- The block `vs` introduces the variables `Δ`. -/
structure Block (E : Env) (Γ : List (String × Srt)) (D : List String) (vs : List Bnd) (Δ : List (String × Srt)) : Prop where
  sorts : List.Forall₂ (fun b d => d.1 = b.1 ∧ E.sorts b.2 = some d.2) vs Δ
  nodup : (names Δ).Nodup
  fresh : ∀ x ∈ names Δ, NewName E Γ D x

/-- The expected sorts of arguments, in a realm, beside the arguments. -/
def expect (r : Realm) (ss : List Srt) (ts : List Tm) : List (Realm × Srt × Tm) := (ss.zip ts).map fun p => (r, p.1, p.2)

mutual
/-- `Ws E r Γ D t s`: in the realm `r`, with the variables `Γ` in scope and the names `D` left behind, `t` is well
sorted, of sort `s`. -/
inductive Ws (E : Env) : Realm → List (String × Srt) → List String → Tm → Srt → Prop
  | var {r Γ D x s} : (x, s) ∈ Γ → s ≠ .name → Ws E r Γ D (.cvar x) s
  | const {r Γ D x i o} : x ∉ names Γ → x ∉ D → funOf E r x = some i → i.sig = .fixed [] o → Ws E r Γ D (.cvar x) (outOf o)
  | app {r Γ D f i a o args} : funOf E r f = some i → i.sig = .fixed a o → args.length = a.length →
      WsL E Γ D (expect ((realmOf o).getD r) a args) → Ws E r Γ D (.app f args) (outOf o)
  | letin {r Γ D x s so s₁ t₁ t₂ s₂} : E.sorts s = some so → NewName E Γ D x → Ws E r Γ (x :: D) t₁ s₁ → Same r so s₁ →
      Ws E r ((x, so) :: Γ) (leak t₁ ++ D) t₂ s₂ → Ws E r Γ D (.letin (x, s) t₁ t₂) s₂
  | iteEv {Γ D c a b sc sa sb} : Ws E .ev Γ D c sc → Same .ev .bool sc → Ws E .ev Γ (leak c ++ D) a sa →
      Ws E .ev Γ (leak a ++ (leak c ++ D)) b sb → Same .ev sa sb → Ws E .ev Γ D (.ite c a b) sa
  | iteSym {Γ D c a b} : Ws E .sym Γ D c .condition → Ws E .sym Γ (leak c ++ D) a .message →
      Ws E .sym Γ (leak a ++ (leak c ++ D)) b .message → Ws E .sym Γ D (.ite c a b) .message
  | find {r Γ D vs Δ c a b} : Ws E .sym Γ D b .message → Block E Γ (leak b ++ D) vs Δ →
      Ws E .sym (Δ ++ Γ) (leak b ++ D) c .condition → Ws E .sym (Δ ++ Γ) (leak c ++ (leak b ++ D)) a .message →
      Ws E r Γ D (.find vs c a b) .message
  | quant {r Γ D k vs Δ b s} : Block E Γ D vs Δ → Ws E r (Δ ++ Γ) D b s → Same r (propSort r) s →
      Ws E r Γ D (.quant k vs b) (propSort r)
  | hardEq {r Γ D a b} : WsL E Γ D [(.sym, .message, a), (.sym, .message, b)] → Ws E r Γ D (.infx .hardEq [a, b]) .condition
  | eqEv {Γ D a b sa sb} : Ws E .ev Γ D a sa → Ws E .ev Γ (leak a ++ D) b sb → Same .ev sa sb →
      Ws E .ev Γ D (.infx .eq [a, b]) .bool
  | eqSym {Γ D a b} : WsL E Γ D [(.sym, .message, a), (.sym, .message, b)] → Ws E .sym Γ D (.infx .eq [a, b]) .condition
  | chain {r Γ D ts} : 3 ≤ ts.length → (∀ t ∈ ts, leak t = []) → (∀ t ∈ ts, Ws E .sym Γ D t .message) →
      Ws E r Γ D (.infx .hardEq ts) .condition
  | eqChain {Γ D ts} : 3 ≤ ts.length → (∀ t ∈ ts, leak t = []) → (∀ t ∈ ts, Ws E .sym Γ D t .message) →
      Ws E .sym Γ D (.infx .eq ts) .condition
  | neq {r Γ D ts s} : Ws E r Γ D (.infx .eq ts) s → Ws E r Γ D (.infx .neq ts) s
  | iff {Γ D a b sa sb} : Ws E .ev Γ D a sa → Same .ev .bool sa → Ws E .ev Γ (leak a ++ D) b sb → Same .ev .bool sb →
      Ws E .ev Γ D (.infx .iff [a, b]) .bool
  | implies {r Γ D a b} : WsL E Γ D [(r, propSort r, a), (r, propSort r, b)] → Ws E r Γ D (.infx .implies [a, b]) (propSort r)
  | conn {r Γ D op ts} : op = .and ∨ op = .or → ts ≠ [] → WsL E Γ D (ts.map fun t => (r, propSort r, t)) →
      Ws E r Γ D (.infx op ts) (propSort r)
  | msg {r Γ D f i c args s} : funOf E r f = some i → E.functions f = some i → E.steps f = some c →
      i.sig = .fixed (c.params.map (·.2)) .step → i.isName = false → args.length = c.params.length →
      WsL E Γ D (expect r (c.params.map (·.2)) args) → (names c.params ++ ["in"]).Nodup →
      Ws E r (c.params ++ [("in", .message)]) [] c.message s → Ws E r Γ D (.msg f args) s
  | cond {r Γ D f i c args s} : funOf E r f = some i → E.functions f = some i → E.steps f = some c →
      i.sig = .fixed (c.params.map (·.2)) .step → i.isName = false → args.length = c.params.length →
      WsL E Γ D (expect r (c.params.map (·.2)) args) → (names c.params ++ ["in"]).Nodup →
      Ws E r (c.params ++ [("in", .message)]) [] c.condition s → Ws E r Γ D (.cond f args) s
  | mac {r Γ D m c args s} : E.macros m = some c → args.length = c.params.length →
      WsL E Γ D ((c.params.zip args).map fun p => ((realmOf p.1.2).getD r, p.1.2, p.2)) → (names c.params).Nodup →
      Ws E r c.params [] c.body s → Ws E r Γ D (.mac m args) s
/-- Arguments, read one after the other, have the sorts expected of them. -/
inductive WsL (E : Env) : List (String × Srt) → List String → List (Realm × Srt × Tm) → Prop
  | nil {Γ D} : WsL E Γ D []
  | cons {Γ D r s t s' l} : Ws E r Γ D t s' → Same r s s' → WsL E Γ (leak t ++ D) l → WsL E Γ D ((r, s, t) :: l)
end

end Prs
end CV
