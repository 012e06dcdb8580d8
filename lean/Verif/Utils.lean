/-
Model of the container helpers of crates/utils/src: arc_into_iter.rs (`ArcIntoIter`) and vecref.rs
(`VecRef`, `IterVecRef`, `VecRefClone`, `IntoIterVecRefClone`). Paths are relative to
/repo/crates/utils/src. Panics are `none`. References and reference counts are erased: a shared slice
is a list.
-/
namespace CV
namespace Utl

variable {α : Type}

/-! ### arc_into_iter.rs -/

/-- Models `ArcIntoIter` (arc_into_iter.rs:3-11). -/
inductive ArcIt (α : Type)
  | empty
  | iter (data : List α) (index stop : Nat)
  deriving DecidableEq

/-- Models `Iterator::next` (arc_into_iter.rs:22-36): the item (`none`: the `unwrap` panics) and the
state after. The recursive call in the `else` branch is on `Empty` and is inlined. -/
def ArcIt.next : ArcIt α → Option (Option α × ArcIt α)
  | .empty => some (none, .empty)
  | .iter data index stop =>
    if index ≠ stop then
      match data[index]? with
      | some e => some (some e, .iter data (index + 1) stop)
      | none => none
    else some (none, .empty)

/-- Models `DoubleEndedIterator::next_back` (arc_into_iter.rs:69-84). `*end -= 1` with `end = 0`
overflows: `none`. -/
def ArcIt.nextBack : ArcIt α → Option (Option α × ArcIt α)
  | .empty => some (none, .empty)
  | .iter data index stop =>
    if index ≠ stop then
      if stop = 0 then none
      else match data[stop - 1]? with
        | some e => some (some e, .iter data index (stop - 1))
        | none => none
    else some (none, .empty)

/-- Models `size_hint` (arc_into_iter.rs:38-50); both components are this number. The subtraction
overflows when `end < index`. -/
def ArcIt.len : ArcIt α → Option Nat
  | .empty => some 0
  | .iter _ index stop => if index ≤ stop then some (stop - index) else none

/-- Models `collect` (arc_into_iter.rs:52-62); slicing out of range panics. -/
def ArcIt.collect : ArcIt α → Option (List α)
  | .empty => some []
  | .iter data index stop =>
    if index ≤ stop ∧ stop ≤ data.length then some ((data.take stop).drop index) else none

/-- Models `From<Arc<[T]>>` (arc_into_iter.rs:87-95), used by `ClonableArc::into_iter`,
`VecRef::into_iter` and `FromIterator`. -/
def ArcIt.ofArc (l : List α) : ArcIt α := .iter l 0 l.length
/-- Models `From<&Arc<[T]>>` and `From<[T; N]>` (arc_into_iter.rs:97-124). -/
def ArcIt.ofArcRef (l : List α) : ArcIt α := if l.length = 0 then .empty else .iter l 0 l.length

/-! ### vecref.rs -/

/-- Models `VecRef` (vecref.rs:18-25). -/
inductive VecRef (α : Type)
  | vec (l : List α)
  | ref (l : List α)
  | refRef (l : List α)
  | single (a : α)
  | empty
  deriving DecidableEq

/-- Models `VecRef::len` (vecref.rs:34-42). -/
def VecRef.len : VecRef α → Nat
  | .vec v | .ref v | .refRef v => v.length
  | .single _ => 0
  | .empty => 0

/-- Models `VecRef::is_empty` (vecref.rs:44-46). -/
def VecRef.isEmpty (v : VecRef α) : Bool := v.len == 0

/-- Models `VecRef::get` (vecref.rs:48-56). -/
def VecRef.get (i : Nat) : VecRef α → Option α
  | .vec v | .ref v | .refRef v => v[i]?
  | .single e => if i = 0 then some e else none
  | .empty => none

/-- Models `Index::index` (vecref.rs:78-89); `none` is a panic. -/
def VecRef.index (i : Nat) : VecRef α → Option α
  | .vec v | .ref v | .refRef v => v[i]?
  | .single e => if i = 0 then some e else none
  | .empty => none

/-- Models `IterVecRef` (vecref.rs:125-132). The standard slice iterators are modelled by the list of
elements they still have to yield. -/
inductive IterVecRef (α : Type)
  | owned (it : ArcIt α)
  | vec (l : List α)
  | ref (l : List α)
  | single (a : α)
  | empty

/-- Models `IntoIterator for &VecRef` (vecref.rs:97-105). -/
def VecRef.iter : VecRef α → IterVecRef α
  | .vec v => .ref v
  | .ref v => .vec v
  | .refRef v => .ref v
  | .single e => .single e
  | .empty => .empty

/-- Models `IntoIterator for VecRef` (vecref.rs:113-121). -/
def VecRef.intoIter : VecRef α → IterVecRef α
  | .vec v => .owned (.ofArc v)
  | .ref v => .vec v
  | .refRef v => .ref v
  | .single e => .single e
  | .empty => .empty

/-- Models `Iterator::next` (vecref.rs:137-149). -/
def IterVecRef.next : IterVecRef α → Option (Option α × IterVecRef α)
  | .owned it => it.next.map fun p => (p.1, .owned p.2)
  | .vec l => some (l.head?, .vec l.tail)
  | .ref l => some (l.head?, .ref l.tail)
  | .single e => some (some e, .empty)
  | .empty => some (none, .empty)

/-- Models `next_back` (vecref.rs:179-187). -/
def IterVecRef.nextBack : IterVecRef α → Option (Option α × IterVecRef α)
  | .owned it => it.nextBack.map fun p => (p.1, .owned p.2)
  | .vec l => some (l.getLast?, .vec l.dropLast)
  | .ref l => some (l.getLast?, .ref l.dropLast)
  | .single e => (IterVecRef.single e).next
  | .empty => some (none, .empty)

/-- Models `size_hint` (vecref.rs:151-159). -/
def IterVecRef.len : IterVecRef α → Option Nat
  | .owned it => it.len
  | .vec l | .ref l => some l.length
  | .single _ => some 1
  | .empty => some 0

/-- Models `collect` (vecref.rs:161-172). -/
def IterVecRef.collect : IterVecRef α → Option (List α)
  | .owned it => it.collect
  | .vec l | .ref l => some l
  | .single a => some [a]
  | .empty => some []

/-- Models `Extend::extend` (vecref.rs:238-243). -/
def VecRef.extend (v : VecRef α) (l : List α) : Option (VecRef α) :=
  v.iter.collect.map fun x => .vec (x ++ l)

/-- Models `VecRefClone` (vecref.rs:253-260). -/
inductive VecRefClone (α : Type)
  | vecRef (v : VecRef α)
  | vec (l : List α)
  | owned (a : α)
  deriving DecidableEq

/-- Models `VecRefClone::len` (vecref.rs:263-265). -/
def VecRefClone.len : VecRefClone α → Nat
  | .vecRef v => v.len
  | .vec l => l.length
  | .owned _ => 1

/-- Models `VecRefClone::is_empty` (vecref.rs:267-269). -/
def VecRefClone.isEmpty : VecRefClone α → Bool
  | .vecRef v => v.isEmpty
  | .vec l => l.length == 0
  | .owned _ => false

/-- Models `VecRefClone::get` (vecref.rs:271-278). -/
def VecRefClone.get (i : Nat) : VecRefClone α → Option α
  | .vecRef v => v.get i
  | .vec l => l[i]?
  | .owned a => if i = 0 then some a else none

/-- Models `IntoIterator for &VecRefClone` (vecref.rs:309-315). -/
def VecRefClone.iter : VecRefClone α → IterVecRef α
  | .vecRef v => v.iter
  | .vec l => (VecRef.ref l).iter
  | .owned a => (VecRef.single a).iter

/-- Models `IntoIterVecRefClone` (vecref.rs:328-335). -/
inductive IntoIterVRC (α : Type)
  | vecRef (it : IterVecRef α)
  | vec (it : ArcIt α)
  | one (a : α)

/-- Models `IntoIterator for VecRefClone` (vecref.rs:323-329). -/
def VecRefClone.intoIter : VecRefClone α → IntoIterVRC α
  | .vecRef v => .vecRef v.intoIter
  | .vec l => .vec (.ofArc l)
  | .owned a => .one a

/-- Models `next` (vecref.rs:352-364). -/
def IntoIterVRC.next : IntoIterVRC α → Option (Option α × IntoIterVRC α)
  | .vecRef it => it.next.map fun p => (p.1, .vecRef p.2)
  | .vec it => it.next.map fun p => (p.1, .vec p.2)
  | .one a => some (some a, .vecRef .empty)

/-- Models `next_back` (vecref.rs:391-397). -/
def IntoIterVRC.nextBack : IntoIterVRC α → Option (Option α × IntoIterVRC α)
  | .vecRef it => it.nextBack.map fun p => (p.1, .vecRef p.2)
  | .vec it => it.nextBack.map fun p => (p.1, .vec p.2)
  | .one a => (IntoIterVRC.one a).next

/-- Models `size_hint` (vecref.rs:366-372). -/
def IntoIterVRC.len : IntoIterVRC α → Option Nat
  | .vecRef it => it.len
  | .vec it => it.len
  | .one _ => some 1

/-- Models `Extend for VecRefClone` (vecref.rs:527-533), through `collect` (vecref.rs:374-383). -/
def VecRefClone.extend (v : VecRefClone α) (l : List α) : Option (VecRefClone α) :=
  (match v.intoIter with
    | .vecRef it => it.collect
    | .vec it => it.collect
    | .one a => some [a]).map fun x => .vec (x ++ l)

end Utl
end CV
