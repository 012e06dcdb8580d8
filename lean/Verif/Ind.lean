/-
Model of the prototype for indistinguishability (/repo/crates/indistinguishability/src; paths below are relative to it):
the rewrite rules (main.rs) and the searches that apply IND-CCA2 and ENC-KP (ind_cca.rs, enc_kp.rs). The e-graphs of the
crate `egg` are modelled by their contents: the nodes of each class.
-/
namespace CV
namespace Ind

/-- Models the heads of the language `CCSA` (main.rs:16-36). -/
inductive Op
  | const (s : String)
  | nonce | enc | dec | pk | ite | tuple | p1 | p2 | eq | length | zeroes | tru | fls | eta | input | equiv
  deriving DecidableEq

/-- Terms, and patterns when they have variables (`RecExpr<CCSA>`, `Pattern<CCSA>`). -/
inductive Tm
  | var (x : String)
  | app (f : Op) (args : List Tm)

namespace Tm
@[elab_as_elim]
theorem ind {P : Tm → Prop} (hv : ∀ x, P (var x)) (ha : ∀ f args, (∀ a ∈ args, P a) → P (app f args)) : ∀ t, P t
  | var x => hv x
  | app f args => ha f args (fun a _ => ind hv ha a)
end Tm

/-- Models `Rewrite`: a name, what is searched and what it is made equal to. -/
structure Rw where
  name : String
  lhs : Tm
  rhs : Tm

def mtrue : Tm := .app .tru []
def mfalse : Tm := .app .fls []

/-- Models `make_general_rules` (main.rs:49-64). -/
def generalRules : List Rw := [
  ⟨"simpl-tuple-1", .app .p1 [.app .tuple [.var "a", .var "b"]], .var "a"⟩,
  ⟨"simpl-tuple-2", .app .p2 [.app .tuple [.var "a", .var "b"]], .var "a"⟩,
  ⟨"simpl-dec", .app .dec [.app .enc [.var "m", .var "r", .app .pk [.var "k"]], .var "k"], .var "m"⟩,
  ⟨"ite-base-1", .app .ite [mtrue, .var "a", .var "b"], .var "a"⟩,
  ⟨"ite-base-2", .app .ite [mfalse, .var "a", .var "b"], .var "b"⟩,
  ⟨"ite-same", .app .ite [.var "c", .var "a", .var "a"], .var "a"⟩,
  ⟨"ite-eq-1", .app .ite [.app .eq [.var "a", .var "b"], .var "a", .var "b"], .var "a"⟩,
  ⟨"ite-eq-2", .app .ite [.app .eq [.var "a", .var "b"], .var "a", .var "b"], .var "b"⟩,
  ⟨"eq-refl", .app .eq [.var "a", .var "a"], mtrue⟩,
  ⟨"eq-sym", .app .eq [.var "a", .var "b"], .app .eq [.var "b", .var "a"]⟩,
  ⟨"length-nonce", .app .length [.app .nonce [.var "x"]], .app .eta []⟩,
  ⟨"length-zeroes", .app .length [.app .zeroes [.app .length [.var "x"]]], .app .length [.var "x"]⟩]

/-- Models `vars` (main.rs:92-94). -/
def bvars (start arity : Nat) : List Tm := (List.range' start arity).map fun i => .var s!"var{i}"

/-- Models the premise (main.rs:98-104, 112-118). -/
def bubbleL (f : Op) (n : Nat) : Tm := .app .ite [.var "c", .app f (bvars 0 n), .app f (bvars n n)]

/-- Models the conclusion (main.rs:105-108, 119-122). -/
def bubbleR (f : Op) (n : Nat) : Tm :=
  .app f (((bvars 0 n).zip (bvars n n)).map fun p => .app .ite [.var "c", p.1, p.2])

/-- Models `mk_bubble_rules` (main.rs:84-128). The names of the rules are not modelled. -/
def bubbleRules (funs : List (Op × Nat)) : List Rw :=
  funs.map (fun p => ⟨"ite-bubble-down", bubbleL p.1 p.2, bubbleR p.1 p.2⟩) ++
    funs.map (fun p => ⟨"ite-bubble-up", bubbleR p.1 p.2, bubbleL p.1 p.2⟩)

/-- The functions given in `main` (main.rs:236-246). -/
def funs : List (Op × Nat) :=
  [(.enc, 3), (.dec, 2), (.tuple, 2), (.p1, 1), (.p2, 1), (.eq, 2), (.length, 1), (.zeroes, 1)]

/-- The rules of `main` (main.rs:248). -/
def rules : List Rw := generalRules ++ bubbleRules funs

/-! ### E-graphs -/

/-- A node of an e-graph. -/
structure Node where
  op : Op
  ch : List Nat
  deriving DecidableEq

/-- The nodes of every class (`egraph[id].iter()`). -/
abbrev EG := Nat → List Node

/-- Models `SStatus` (enc_kp.rs:19-23, ind_cca.rs:19-24); the map of `SubtermNonceDownMemoize`. -/
inductive Status
  | searching | found | notFound
  deriving DecidableEq

abbrev Memo := Nat → Option Status

def Memo.insert (m : Memo) (i : Nat) (s : Status) : Memo := fun j => if j = i then some s else m j

/-- `bool` to `SStatus`. -/
def statusOf : Bool → Status
  | true => .notFound
  | false => .found

/-- Models `Iterator::all` with a closure that has a state: stops at the first `false`. `none`: no more fuel. -/
def allM (f : Memo → Nat → Option (Bool × Memo)) : Memo → List Nat → Option (Bool × Memo)
  | m, [] => some (true, m)
  | m, i :: is => (f m i).bind fun r => if r.1 then allM f r.2 is else some (false, r.2)

/-- Models `Iterator::any` with a closure that has a state: stops at the first `true`. -/
def anyM (f : Memo → Node → Option (Bool × Memo)) : Memo → List Node → Option (Bool × Memo)
  | m, [] => some (false, m)
  | m, n :: ns => (f m n).bind fun r => if r.1 then some (true, r.2) else anyM f r.2 ns

/-- Models `not_subterm_down` (ind_cca.rs:95-141), `not_subterm_down_nonce` (enc_kp.rs:97-138) and
`not_subterm_down_key` (enc_kp.rs:139-181): they only differ by `find_next`, here `next`. `fuel` bounds the depth of the
recursion. -/
def down (G : EG) (next : Node → List Nat) (ignore : List Nat) (nonce : Nat) : Nat → Memo → Nat → Option (Bool × Memo)
  | 0, _, _ => none
  | fuel + 1, m, t =>
    match m t with
    | some .found | some .searching => some (false, m)
    | some .notFound => some (true, m)
    | none =>
      (if t = nonce then some (false, m)
        else if t ∈ ignore then some (true, m)
        else anyM (fun m n => allM (down G next ignore nonce fuel) m (next n)) (m.insert t .searching) (G t)).map
        fun r => (r.1, r.2.insert t (statusOf r.1))

/-- Models `find_next` for `SearchKind::Randomness` (ind_cca.rs:115-124). -/
def nextRand (n : Node) : List Nat := if n.op = .input then [] else n.ch

/-- Models `find_next` for `SearchKind::KeyBeforeEnc` (ind_cca.rs:115-124). -/
def nextKey (k : Nat) (n : Node) : List Nat :=
  if n.op = .dec ∧ n.ch[1]? = some k then n.ch.take 1
  else if n.op = .pk ∧ n.ch = [k] then []
  else if n.op = .input then []
  else n.ch

/-- Models `find_next` of `not_subterm_down_nonce` (enc_kp.rs:116-121). -/
def nextKpRand (n : Node) : List Nat := if n.op = .nonce ∨ n.op = .input then [] else n.ch

/-- Models `find_next` of `not_subterm_down_key` (enc_kp.rs:158-164). -/
def nextKpKey (k : Nat) (n : Node) : List Nat :=
  if n.op = .dec ∧ n.ch[1]? = some k then n.ch.take 1
  else if n.op = .nonce ∨ n.op = .input then []
  else n.ch

/-- The state of a search (ind_cca.rs:155-163, enc_kp.rs:196-205): `memos` are those of the checks. -/
structure Srch where
  todos : List (Nat × Tm)
  done : List Nat
  memos : List Memo

/-- A check of a sibling: `find_next` and the nonce looked for. -/
structure Check where
  next : Node → List Nat
  nonce : Nat

/-- Models the closure `is_sibling_valid` (ind_cca.rs:189-193, enc_kp.rs:232-236): the checks in order, each with its
map, up to the first that fails. -/
def valid (G : EG) (ignore : List Nat) (fuel : Nat) : List Check → List Memo → Nat → Option (Bool × List Memo)
  | c :: cs, m :: ms, i =>
    (down G c.next ignore c.nonce fuel m i).bind fun r =>
      if r.1 then (valid G ignore fuel cs ms i).map fun q => (q.1, r.2 :: q.2) else some (false, r.2 :: ms)
  | _, ms, _ => some (true, ms)

/-- `l.all(|sibling| sibling == id || is_sibling_valid(sibling))` (ind_cca.rs:194, enc_kp.rs:237). -/
def siblings (G : EG) (ignore : List Nat) (fuel : Nat) (cs : List Check) (id : Nat) : List Memo → List Nat → Option (Bool × List Memo)
  | ms, [] => some (true, ms)
  | ms, s :: ss =>
    if s = id then siblings G ignore fuel cs id ms ss
    else (valid G ignore fuel cs ms s).bind fun r => if r.1 then siblings G ignore fuel cs id r.2 ss else some (false, r.2)

/-- Models `push` (ind_cca.rs:217-220, enc_kp.rs:257-260): inserting in a map. -/
def Srch.push (s : Srch) (i : Nat) (t : Tm) : Srch :=
  if i ∈ s.done then s else { s with todos := s.todos.filter (fun p => p.1 ≠ i) ++ [(i, t)] }

/-- Models `search_up_once` (ind_cca.rs:180-207, enc_kp.rs:222-247). `rep` is `id_to_expr`. -/
def upOnce (G : EG) (rep : Nat → Tm) (ignore : List Nat) (fuel : Nat) (cs : List Check) (l : Node) (parent id : Nat) (t : Tm) (s : Srch) :
    Option Srch :=
  (siblings G ignore fuel cs id s.memos l.ch).map fun r =>
    let s := { s with memos := r.2 }
    if r.1 then s.push parent (.app l.op (l.ch.map fun i => if i = id then t else rep i)) else s

/-- The loop over the parents of a class. -/
def ups (G : EG) (rep : Nat → Tm) (ignore : List Nat) (fuel : Nat) (cs : List Check) (id : Nat) (t : Tm) : List (Node × Nat) → Srch → Option Srch
  | [], s => some s
  | (l, p) :: ps, s => (upOnce G rep ignore fuel cs l p id t s).bind (ups G rep ignore fuel cs id t ps)

/-- Models the repetition of `next` (ind_cca.rs:223-243, enc_kp.rs:263-283). `order` is the order of the map `todos`;
`parents` gives the nodes that have the class as a child, with their classes. The classes that have a node `equiv` are
results. -/
def run (G : EG) (rep : Nat → Tm) (parents : Nat → List (Node × Nat)) (order : List (Nat × Tm) → List (Nat × Tm)) (ignore : List Nat)
    (dfuel : Nat) (cs : List Check) : Nat → Srch → Option (List (Nat × Tm))
  | 0, _ => none
  | fuel + 1, s =>
    match order s.todos with
    | [] => some []
    | (i, t) :: _ =>
      let s := { s with todos := s.todos.filter (fun p => p.1 ≠ i), done := i :: s.done }
      if (G i).any (fun n => n.op = .equiv) then
        (run G rep parents order ignore dfuel cs fuel s).map ((i, t) :: ·)
      else
        (ups G rep ignore dfuel cs i t (parents i) s).bind (run G rep parents order ignore dfuel cs fuel)

/-- Models `is_nonce` (main.rs:167-169). -/
def isNonce (G : EG) (i : Nat) : Bool := (G i).any (fun n => n.op = .nonce)

/-- Models `Instance` (ind_cca.rs:143-153). -/
structure Inst where
  m : Nat
  k : Nat
  r : Nat
  c : Nat

/-- The checks made in order on one class, with fresh maps, stopping at the first failure (`into_search`). -/
def checkAll (G : EG) (fuel : Nat) (i : Nat) : List Check → Option (Bool × List Memo)
  | [] => some (true, [])
  | c :: cs => (down G c.next [] c.nonce fuel (fun _ => none) i).bind fun r =>
    if r.1 then (checkAll G fuel i cs).map fun q => (q.1, r.2 :: q.2) else some (false, [])

/-- Models `find` for one instance of IND-CCA2 (ind_cca.rs:247-287, 317-327): the key is looked for before the
randomness. -/
def indCca (G : EG) (rep : Nat → Tm) (parents : Nat → List (Node × Nat)) (order : List (Nat × Tm) → List (Nat × Tm)) (dfuel fuel : Nat)
    (I : Inst) : Option (List (Nat × Tm)) :=
  if I.k = I.r then some []
  else if !(isNonce G I.k && isNonce G I.r) then some []
  else
    let cs : List Check := [⟨nextKey I.k, I.k⟩, ⟨nextRand, I.r⟩]
    (checkAll G dfuel I.m cs).bind fun r =>
      if r.1 then
        let t := Tm.app .enc [.app .zeroes [.app .length [rep I.m]], rep I.r, .app .pk [rep I.k]]
        run G rep parents order [I.c] dfuel cs fuel ⟨[(I.c, t)], [], r.2⟩
      else some []

/-- The maps of `into_search` in the order of the checks of `search_up_once`. -/
def rot : List Memo → List Memo
  | [a, b, c] => [c, a, b]
  | l => l

/-- Models `find` for one instance of ENC-KP (enc_kp.rs:287-328, 366-378) with new key `nk`. The order of the three checks
differs between `into_search` (288-301) and `search_up_once` (232-236). -/
def encKp (G : EG) (rep : Nat → Tm) (parents : Nat → List (Node × Nat)) (order : List (Nat × Tm) → List (Nat × Tm)) (dfuel fuel : Nat)
    (I : Inst) (nk : Nat) : Option (List (Nat × Tm)) :=
  if I.k = nk then some []
  else if I.k = I.r then some []
  else if !(isNonce G I.k && isNonce G I.r) then some []
  else
    let cs : List Check := [⟨nextKpKey I.k, I.k⟩, ⟨nextKpKey nk, nk⟩, ⟨nextKpRand, I.r⟩]
    (checkAll G dfuel I.m cs).bind fun r =>
      if r.1 then
        let t := Tm.app .enc [rep I.m, rep I.r, .app .pk [rep nk]]
        run G rep parents order [I.c] dfuel [⟨nextKpRand, I.r⟩, ⟨nextKpKey I.k, I.k⟩, ⟨nextKpKey nk, nk⟩] fuel ⟨[(I.c, t)], [], rot r.2⟩
      else some []

end Ind
end CV
