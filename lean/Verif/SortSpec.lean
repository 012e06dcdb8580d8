/-
Specification: which formulas are well sorted. The sorts of the symbols are those of the logic: the connectives, the
evaluations, the two `if then else`s, equality at any sort, and whatever the file declares (`decl`). A function that
stands for a symbolic quantifier or a `find` (an entry of the table) takes what its parameters say and gives a condition
or a message; the content of the entry must itself be well sorted in the scope of its parameters and bound variables.
An occurrence of a variable has the sort of the innermost binder of its number.
-/
import Verif.ElabWs

namespace CV
namespace Prs

/-- The declared sorts of the functions of a file: arguments and output. -/
abbrev Sg := String → Option (List Srt × Srt)

/-- `f` takes arguments of sorts `ss` and gives an `s`. -/
inductive FnSrt (decl : Sg) (tbl : List TAQ) : PF → List Srt → Srt → Prop
  | tru : FnSrt decl tbl .tru [] .bool
  | fls : FnSrt decl tbl .fls [] .bool
  | and {n} : FnSrt decl tbl .and (List.replicate n .bool) .bool
  | or {n} : FnSrt decl tbl .or (List.replicate n .bool) .bool
  | not : FnSrt decl tbl .not [.bool] .bool
  | imp : FnSrt decl tbl .imp [.bool, .bool] .bool
  | eq {s} : FnSrt decl tbl .eq [s, s] .bool
  | taTrue : FnSrt decl tbl .taTrue [] .condition
  | taFalse : FnSrt decl tbl .taFalse [] .condition
  | taAnd : FnSrt decl tbl .taAnd [.condition, .condition] .condition
  | taOr : FnSrt decl tbl .taOr [.condition, .condition] .condition
  | taNot : FnSrt decl tbl .taNot [.condition] .condition
  | taImp : FnSrt decl tbl .taImp [.condition, .condition] .condition
  | taEq : FnSrt decl tbl .taEq [.message, .message] .condition
  | ite {s} : FnSrt decl tbl .ite [.bool, s, s] s
  | taIte : FnSrt decl tbl .taIte [.condition, .message, .message] .message
  | evalMsg : FnSrt decl tbl .evalMsg [.message] .bitstring
  | evalCond : FnSrt decl tbl .evalCond [.condition] .bool
  | nameToMsg : FnSrt decl tbl .nameToMsg [.name] .message
  | input : FnSrt decl tbl .input [.step] .message
  | sym {n a o} : decl n = some (a, o) → FnSrt decl tbl (.sym n) a o
  | taQuant {n k bs fr b} : tbl[n]? = some (.quant k bs fr b) → FnSrt decl tbl (.taq n) (fr.map Var.sort) .condition
  | taFind {n bs fr c l r} : tbl[n]? = some (.find bs fr c l r) → FnSrt decl tbl (.taq n) (fr.map Var.sort) .message

/-- The sorts of the variables, by number. -/
abbrev Ctx := Nat → Option Srt

/-- Bind a block of variables, the last one being the innermost. -/
def bindC (C : Ctx) : List Var → Ctx
  | [] => C
  | v :: vs => bindC (fun i => if i = v.id then some v.sort else C i) vs

/-- `φ` is well sorted, of sort `s`, where the variables have the sorts `C`. -/
inductive HasSrt (decl : Sg) (tbl : List TAQ) : Ctx → Fm PF → Srt → Prop
  | var {C v s} : C v.id = some s → HasSrt decl tbl C (.var v) s
  | app {C f args ss s} : FnSrt decl tbl f ss s → args.length = ss.length →
      (∀ p ∈ args.zip ss, HasSrt decl tbl C p.1 p.2) → HasSrt decl tbl C (.app f args) s
  | quant {C q vs b} : HasSrt decl tbl (bindC C vs) b .bool → HasSrt decl tbl C (.quant q vs b) .bool

/-- The content of an entry is well sorted. -/
def EntrySrt (decl : Sg) (tbl : List TAQ) : TAQ → Prop
  | .quant _ bs fr b => HasSrt decl tbl (bindC (bindC (fun _ => none) fr) bs) b .condition
  | .find bs fr c l r => HasSrt decl tbl (bindC (bindC (fun _ => none) fr) bs) c .condition ∧
      HasSrt decl tbl (bindC (bindC (fun _ => none) fr) bs) l .message ∧
      HasSrt decl tbl (bindC (fun _ => none) fr) r .message

/-- All entries are well sorted. -/
def TblSrt (decl : Sg) (tbl : List TAQ) : Prop := ∀ q ∈ tbl, EntrySrt decl tbl q

/-- The sort of the formula a term of sort `s` becomes: in the evaluated realm, that of the value. -/
def norm : Realm → Srt → Srt
  | .sym, s => s
  | .ev, s => Same.val s

/-- The declarations of the elaborator's environment are those of `decl`, and names are what has sort name. -/
def DeclOk (E : Env) (decl : Sg) : Prop := ∀ f i a o, E.functions f = some i → i.sig = .fixed a o →
  FnSrt decl [] i.sym a o ∧ (i.isName = true ↔ o = .name)

end Prs
end CV
