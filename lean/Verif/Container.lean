import Mathlib.Order.Defs.LinearOrder
/-
Model of the container (container/container.rs, container/contained.rs, container/allocator.rs, container/reference.rs) and of
the names of function symbols (formula/function/inner/**). Paths are relative to /repo/crates/cryptovampire/src.
Memory is a growing list of boxes: a pointer is an index, the boxes are never freed while the container lives
(container.rs:80-90 frees all of them at the end). Locks are erased: every operation is atomic.
-/
namespace CV
namespace Cont

/-! ### The heap -/

/-- The boxes of one kind of object (container.rs:28-33): `Option<I>` behind a pointer. -/
abbrev Heap (α : Type) := List (Option α)

/-- Models `allocate_pointee` (container.rs:45-53, 59-67): a new box, whose pointer is returned. -/
def alloc {α : Type} (c : Option α) (h : Heap α) : Nat × Heap α := (h.length, h ++ [c])

/-- Models `allocate_uninit` / `alloc_uninit` (allocator.rs:41-43, 155-160). -/
def allocUninit {α : Type} (h : Heap α) : Nat × Heap α := alloc none h

/-- Models `allocate_inner` / `alloc_inner` (allocator.rs:44-46, 162-167). -/
def allocInner {α : Type} (a : α) (h : Heap α) : Nat × Heap α := alloc (some a) h

/-- Models `ptr_to_ref` / `as_option_ref` (contained.rs:24-29, 88-93, reference.rs:27-37); a pointer that was never handed out
has no content. -/
def content {α : Type} (h : Heap α) (p : Nat) : Option α := (h[p]?).join

/-- Models `is_ptr_valid` (contained.rs:77-79). -/
def isValid {α : Type} (h : Heap α) (p : Nat) : Bool := (content h p).isSome

/-- Models `initialize_with` (contained.rs:56-75): `none` is the error `AlreadyInitialized`. -/
def initWith {α : Type} (p : Nat) (a : α) (h : Heap α) : Option (Heap α) :=
  if !isValid h p then some (h.set p (some a)) else none

/-- Models `precise_as_ref` (reference.rs:62-66): `none` is the panic of `unwrap`. -/
def read {α : Type} (h : Heap α) (p : Nat) : Option α := content h p

/-- Models `alloc_mulitple_uninit` (allocator.rs:57-65). -/
def allocMany {α : Type} : Nat → Heap α → List Nat × Heap α
  | 0, h => ([], h)
  | n + 1, h => ((allocUninit h).1 :: (allocMany n (allocUninit h).2).1, (allocMany n (allocUninit h).2).2)

/-- The outcomes of an allocation with an initialiser. -/
inductive Out (α ρ : Type)
  | ok (x : ρ) (h : Heap α)
  | err (h : Heap α)
  | panic (h : Heap α)

/-- Models `try_alloc_cyclic_with_residual` (allocator.rs:101-118). The callback sees the new pointer and may use the
container; it gives `none` when it fails. -/
def allocCyclic {α ρ : Type} (f : Nat → Heap α → Option (α × ρ) × Heap α) (h : Heap α) : Out α (Nat × ρ) :=
  let u := allocUninit h
  match f u.1 u.2 with
  | (none, h') => .err h'
  | (some (a, r), h') =>
    match initWith u.1 a h' with
    | none => .err h'
    | some h'' => .ok (u.1, r) h''

/-- `iter().zip_eq(content).try_for_each(initialize)` (allocator.rs:133-137): the elements are initialised in order, the
iteration stops at the first error, and panics when one list is longer than the other. -/
def initAll {α : Type} : List Nat → List α → Heap α → Out α Unit
  | [], [], h => .ok () h
  | p :: ps, a :: l, h =>
    match initWith p a h with
    | none => .err h
    | some h' => initAll ps l h'
  | _, _, h => .panic h

/-- Models `try_alloc_mulitple_cyclic_with_residual` (allocator.rs:120-145). -/
def allocManyCyclic {α ρ : Type} (n : Nat) (f : List Nat → Heap α → Option (List α × ρ) × Heap α) (h : Heap α) :
    Out α (List Nat × ρ) :=
  let u := allocMany n h
  match f u.1 u.2 with
  | (none, h') => .err h'
  | (some (l, r), h') =>
    match initAll u.1 l h' with
    | .ok _ h'' => .ok (u.1, r) h''
    | .err h'' => .err h''
    | .panic h'' => .panic h''

/-- Models `Ord for Reference` (reference.rs:83-94): equal pointers are equal, otherwise the contents are compared, then the
addresses. `none` is the panic on an uninitialised pointer. -/
def cmp {α : Type} [LinearOrder α] (h : Heap α) (p q : Nat) : Option Ordering :=
  if p = q then some .eq
  else match read h p, read h q with
    | some a, some b => some ((compare a b).then (compare p q))
    | _, _ => none

/-- What a user of the container can do. -/
inductive Cmd (α : Type)
  | uninit
  | inner (a : α)
  | init (p : Nat) (a : α)

/-- One use of the container; a refused initialisation changes nothing. -/
def step {α : Type} (h : Heap α) : Cmd α → Heap α
  | .uninit => (allocUninit h).2
  | .inner a => (allocInner a h).2
  | .init p a => (initWith p a h).getD h

/-- A sequence of uses. -/
def run {α : Type} (h : Heap α) (cs : List (Cmd α)) : Heap α := cs.foldl step h

/-! ### Names -/

abbrev Txt := List Char

/-- Models `format!("_{id:?}${name}")` (container.rs:111). -/
def freeName (id : Nat) (name : Txt) : Txt := '_' :: Nat.toDigits 10 id ++ '$' :: name

/-- Models `find_free_function_name` (container.rs:104-112): the counter is an `AtomicU16`, which wraps. -/
def findFree (counter : Nat) (name : Txt) : Txt × Nat := (freeName counter name, (counter + 1) % 65536)

/-- A sequence of calls of `find_free_function_name`, by any containers of the process. -/
def findFrees (counter : Nat) : List Txt → List Txt
  | [] => []
  | n :: l => (findFree counter n).1 :: findFrees (findFree counter n).2 l

/-- Models `name_hash_set` (container.rs:118-149): the names of all initialised objects, of the four kinds. -/
def nameSet (functions sorts steps cells : Heap Txt) : List Txt :=
  [functions, sorts, steps, cells].flatMap fun h => h.filterMap id

/-- Models `is_name_available` (container.rs:114-116). -/
def isNameAvailable (functions sorts steps cells : Heap Txt) (n : Txt) : Bool :=
  (nameSet functions sorts steps cells).contains n

/-- The connectives (inner/booleans.rs:27-37, 95-97; inner/term_algebra/connective.rs:44-65, 80-90). -/
inductive Conn
  | and | or | not | implies | tru | fls | eq
  deriving DecidableEq

/-- The kinds of symbolic quantifiers (inner/term_algebra/quantifier.rs:14-30). -/
inductive QKind
  | all | ex | find
  deriving DecidableEq

/-- A function symbol of a generated file, with what its name depends on (inner/mod.rs:22-39). A symbol of the user is a
function, a name, a memory cell or a step: all print the name they were declared with (inner/term_algebra/base_function.rs:35-37,
inner/name.rs:38-40, inner/term_algebra/cell.rs:27-29, inner/step.rs:46-51). -/
inductive Sy
  | user (n : Txt)
  | bool (c : Conn)
  | ite
  | ta (c : Conn)
  | taIff
  | taIte
  | empty
  | pred
  | lt | gt | leq | happens
  | cond | msg | exec | input
  | cast (sort : Txt)
  | quant (k : QKind) (id : Nat)
  | evalMsg | evalCond
  | evalFun (base : Txt)
  | gen (id : Nat) (base : Txt)
  | subterm (sort : Txt) (id : Nat) (base : Txt)
  deriving DecidableEq

/-- Names of the connectives of formulas (inner/booleans.rs:27-37, 95-97). -/
def boolName : Conn → String
  | .and => "and" | .or => "or" | .not => "not" | .implies => "=>" | .tru => "true" | .fls => "false" | .eq => "="

/-- Names of the connectives of terms (inner/term_algebra/connective.rs:44-65, 80-90). -/
def taName : Conn → String
  | .and => "ta$and" | .or => "ta$or" | .not => "ta$not" | .implies => "ta$implies" | .tru => "ta$true" | .fls => "ta$false"
  | .eq => "ta$="

/-- Names of the symbolic quantifiers (inner/term_algebra/quantifier.rs:64-70). -/
def qName : QKind → String
  | .all => "ta$forall" | .ex => "ta$exists" | .find => "ta$find_such_that"

/-- Models `name_ref` (inner/mod.rs:22-39) and the functions it dispatches to: step_macro.rs:66-73, if_then_else.rs:13-15,
term_algebra/if_then_else.rs:12-15, builtin.rs:147-178, 200-217, name_caster.rs:30-32, quantifier.rs:132-134, evaluated_fun.rs:35-37,
subterm.rs:61-67. A `gen` symbol is a predicate, a destructor, a Skolem function or a solver-defined subterm, named by
`find_free_function_name` (function.rs:129-210, subterm.rs:64). -/
def Sy.name : Sy → Txt
  | .user n => n
  | .bool c => (boolName c).toList
  | .ite => "ite".toList
  | .ta c => (taName c).toList
  | .taIff => "ta$iff".toList
  | .taIte => "ta$ite".toList
  | .empty => "empty".toList
  | .pred => "pred".toList
  | .lt => "lt".toList
  | .gt => "gt".toList
  | .leq => "leq".toList
  | .happens => "happens".toList
  | .cond => "cond".toList
  | .msg => "msg".toList
  | .exec => "exec".toList
  | .input => "input".toList
  | .cast s => "cast$".toList ++ s ++ "$name".toList
  | .quant k id => (qName k).toList ++ '$' :: Nat.toDigits 10 id
  | .evalMsg => "evaluate_msg".toList
  | .evalCond => "evaluate_cond".toList
  | .evalFun n => "eval$".toList ++ n
  | .gen id base => freeName id base
  | .subterm sort id base => sort ++ '$' :: freeName id base

end Cont
end CV
