/-
Model of `AllOrOne` and its monads: /repo/crates/utils/src/all_or_one.rs (paths below relative to
/repo/crates/utils/src). `Vec` is `List`; the boxed error of `Result` carries no data; a panic
(`unwrap` on `None`, a failed `assert!`, an out-of-range `swap_remove`, the explicit `panic!`) is
`Res.panic`.
-/
namespace CV

/-- The outcome of a Rust function returning `Result<α, _>`. -/
inductive Res (α : Type)
  | ok (a : α)
  | err
  | panic
  deriving DecidableEq

namespace Res
/-- Sequencing with `?`. -/
def bind {α β : Type} : Res α → (α → Res β) → Res β
  | .ok a, f => f a
  | .err, _ => .err
  | .panic, _ => .panic
/-- `Result::map`. -/
def map {α β : Type} (f : α → β) : Res α → Res β
  | .ok a => .ok (f a)
  | .err => .err
  | .panic => .panic
/-- `try_collect` of an iterator of results: left to right, stopping at the first failure. -/
def collect {α : Type} : List (Res α) → Res (List α)
  | [] => .ok []
  | r :: rs => r.bind fun a => (collect rs).bind fun l => .ok (a :: l)
end Res

/-- Models `AllOrOne<U, Vec<U>>` = `AoOV<U>` (all_or_one.rs:12-21). -/
inductive AoO (α : Type)
  | all (l : List α)
  | any (a : α)
  | one (i : Nat) (a : α)
  deriving DecidableEq

/-- Models `AllOrOneShape` (all_or_one.rs:19). -/
inductive Shape
  | all (n : Nat)
  | any
  | one (i : Nat)
  deriving DecidableEq

/-- Models `AllOrOneShape::try_merge` (all_or_one.rs:24-48). -/
def Shape.tryMerge : Shape → Shape → Option Shape
  | .one i, .one j => if i = j then some (.one i) else none
  | .one _, _ => none
  | _, .one _ => none
  | .all i, .all j => if i = j then some (.all i) else none
  | .all i, .any => some (.all i)
  | .any, .all i => some (.all i)
  | .any, .any => some .any

namespace AoO
variable {α β : Type}

/-- Models `shape` (all_or_one.rs:79-85). -/
def shape : AoO α → Shape
  | .all l => .all l.length
  | .any _ => .any
  | .one i _ => .one i

/-- Models `get` (all_or_one.rs:100-107). -/
def get : AoO α → Nat → Option α
  | .all l, i => l[i]?
  | .any x, _ => some x
  | .one j x, i => if i = j then some x else none

/-- Models `owned_get` (all_or_one.rs:155-162); `swap_remove(i)` returns the `i`-th element. -/
def ownedGet (x : AoO α) (i : Nat) : Res α :=
  match x.get i with
  | some a => .ok a
  | none => .panic

/-- Models `map` (all_or_one.rs:136-146). -/
def map (f : α → β) : AoO α → AoO β
  | .all l => .all (l.map f)
  | .any x => .any (f x)
  | .one i x => .one i (f x)

/-- The mapped iterator of all_or_one.rs:168-171 and of 298-303, from index `i` on. -/
def goAll (f : α → Res (AoO β)) : Nat → List α → Res (List β)
  | _, [] => .ok []
  | i, a :: l => (f a).bind fun r => (r.ownedGet i).bind fun b => (goAll f (i + 1) l).bind fun bs => .ok (b :: bs)

/-- The assertion of all_or_one.rs:175 and 308. -/
def notOne : AoO β → Res (AoO β)
  | .one _ _ => .panic
  | r => .ok r

/-- Models `AoOV::monad_continue` (all_or_one.rs:165-180) and `bind` of the `Result<AoOV<_>, E>` monad
after its leading `self?` (all_or_one.rs:294-313); a pure `f` never returns `err`. -/
def bind (x : AoO α) (f : α → Res (AoO β)) : Res (AoO β) :=
  match x with
  | .all l => (goAll f 0 l).bind fun bs => .ok (.all bs)
  | .any e => (f e).bind notOne
  | .one i e => (f e).bind fun r => (r.ownedGet i).bind fun b => .ok (.one i b)

/-- The fold of all_or_one.rs:199-202: `merge` is `try_merge().unwrap()` (all_or_one.rs:50-52). -/
def mergeShapes : Shape → List Shape → Res Shape
  | s, [] => .ok s
  | s, t :: r =>
    match s.tryMerge t with
    | some u => mergeShapes u r
    | none => .panic

/-- `args.iter().map(|x| x.get(i).unwrap().clone()).collect()` (all_or_one.rs:207). -/
def column (args : List (AoO α)) (i : Nat) : Res (List α) := Res.collect (args.map fun x => x.ownedGet i)

/-- Models `transpose_iter` (all_or_one.rs:197-215) and `transpose_array` (188-194). -/
def transposeIter (args : List (AoO α)) : Res (AoO (List α)) :=
  (mergeShapes .any (args.map shape)).bind fun
    | .all n => (Res.collect ((List.range n).map (column args))).bind fun l => .ok (.all l)
    | .any => (column args 0).bind fun l => .ok (.any l)
    | .one i => (column args i).bind fun l => .ok (.one i l)

/-- Models `IntoIterator for AoOV` (all_or_one.rs:246-257). -/
def toList : AoO α → List α
  | .all l => l
  | .any x => [x]
  | .one _ x => [x]

end AoO

/-- Models `AllOrOneShape::to_aoov` (all_or_one.rs:66-72). -/
def Shape.toAoov : Shape → AoO Unit
  | .all n => .all (List.replicate n ())
  | .any => .any ()
  | .one i => .one i ()

/-- The type `RAoO<T>` of the converters and its `bind` (all_or_one.rs:289-313). -/
def rbind {α β : Type} (x : Res (AoO α)) (f : α → Res (AoO β)) : Res (AoO β) := x.bind fun s => s.bind f

/-- `pure` of that monad (all_or_one.rs:290-292). -/
def rpure {α : Type} (a : α) : Res (AoO α) := .ok (.any a)

/-- Models `AoOV<Option<U>>::transpose` (all_or_one.rs:218-230). -/
def AoO.transposeOpt {α : Type} : AoO (Option α) → Option (AoO α)
  | .all l => (l.mapM id).map .all
  | .any (some a) => some (.any a)
  | .one i (some a) => some (.one i a)
  | _ => none

end CV
