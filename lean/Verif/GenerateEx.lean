import Verif.GenerateProps
import Verif.StdRun
import Mathlib.Tactic.DeriveEncodable
set_option linter.unnecessarySeqFocus false
set_option linter.unusedSimpArgs false
set_option linter.unusedVariables false
set_option linter.constructorNameAsVariable false
/-
A problem with two steps and a memory cell, in both realms: it meets the hypotheses of the C71 theorems. In the evaluated
realm it has an execution; in the symbolic one its file has no model.
-/
namespace CV

deriving instance Encodable for Conn
deriving instance Encodable for Sym

namespace Gen
namespace GEx
open Dep SmtM SmtS Ev Cry Fm

/-- The symbols of the protocol, and those made while the file is written. -/
inductive GF
  | s (x : Sym)
  | sk (f : GF) (i : Nat)
  | dest (f : GF) (i : Nat)
  | rw (n : Nat)
  | ite
  deriving DecidableEq, Encodable

abbrev i0 : Var := ⟨0, .index⟩
abbrev aT : SFm := .app (.step 1) [.var i0]

def stInit : Step := ⟨0, "init", [], .app (.ta .tru) [], .app (.user 0) []⟩
def stA : Step := ⟨1, "A", [i0], .app (.user 1) [.var i0], .app (.cell 0) [aT]⟩
def asg : Assign := ⟨stA, [], .app (.user 2) [.var i0], []⟩
def cel : Cell := ⟨0, [], [asg]⟩
def proto : Protocol := ⟨[stInit, stA], [cel], [⟨.all, [i0], .lt stInit.formula stA.formula, SFm.tru⟩]⟩

def out : GF → Option Srt
  | .s (.bool _) | .s .happens | .s .lt | .s .leq | .s .gt | .s .evalCond | .s (.userEv 1) => some .bool
  | .s .pred | .s (.step _) => some .step
  | .s .cond | .s .exec | .s (.user 1) | .s (.ta _) => some .condition
  | .s .msg | .s .input | .s (.cell _) | .s (.user _) | .s .cast => some .message
  | .s .evalMsg | .s (.userEv _) => some .bitstring
  | .s (.name _) => some .name
  | _ => none

def ins : GF → Option (List Srt)
  | .s (.bool .tru) | .s (.bool .fls) | .s (.ta .tru) | .s (.step 0) | .s (.user 0) | .s (.userEv 0) => some []
  | .s .happens | .s .pred | .s .cond | .s .exec | .s .msg | .s .input | .s (.cell _) => some [.step]
  | .s .lt | .s .leq | .s .gt => some [.step, .step]
  | .s (.step _) | .s (.user _) | .s (.userEv _) | .s (.name _) => some [.index]
  | .s .cast => some [.name]
  | .s .evalMsg => some [.message]
  | .s .evalCond => some [.condition]
  | .rw _ => some [.bitstring, .bitstring]
  | _ => none

def ekind : GF → EKind GF
  | .s (.user 0) => .base [] .message (.s (.userEv 0))
  | .s (.user 1) => .base [.index] .condition (.s (.userEv 1))
  | .s (.user 2) => .base [.index] .message (.s (.userEv 2))
  | .s (.ta .tru) => .conn [] (.s (.bool .tru))
  | .s .evalMsg | .s .evalCond => .evaluate
  | _ => .other

def lang : Lang GF where
  eq := .s (.bool .eq)
  and := .s (.bool .and)
  or := .s (.bool .or)
  imp := .s (.bool .imp)
  tru := .s (.bool .tru)
  lt := .s .lt
  kind _ := .plain
  out := out
  infer _ _ := none

/-- `names`: are there names. -/
def functions (names : Bool) : List GF :=
  (if names then [.s (.name 0)] else []) ++ [.s .cast, .s (.user 0), .s (.user 1), .s (.user 2), .s (.ta .tru), .s (.cell 0), .s (.step 0),
    .s (.step 1), .s .happens, .s .lt, .s .leq, .s .gt, .s .pred, .s .cond, .s .msg, .s .exec, .s .input, .s (.bool .tru),
    .s (.bool .and), .s (.bool .or), .s (.bool .not), .s (.bool .imp), .s (.bool .eq), .ite]

def E (names symbolic : Bool) : Cfg GF where
  L := lang
  not := .s (.bool .not)
  ite := .ite
  evs := [(.message, .s .evalMsg), (.condition, .s .evalCond)]
  evalSort s := if s = .message then some .bitstring else if s = .condition then some .bool else none
  kind := ekind
  functions := functions names
  sorts := [.message, .condition, .index, .name, .step, .bool, .bitstring]
  symbolic := symbolic
  noBitstring := false
  legacy := false
  rewriteFn _ := .rw 0
  skolem := .sk

def K (names symbolic : Bool) : Pbl GF where
  E := E names symbolic
  cast := .s .cast
  eqTa := .s (.ta .eq)
  toBits := .s .evalMsg
  steps := []
  cells := []
  G := ⟨⟨false, []⟩, ⟨false, []⟩, []⟩
  tops := []
  fuel := 10
  mfuel := 10

def info : Info GF where
  dflt _ := false
  ta f := match f with
    | .s (.user _) | .s (.cell _) | .s (.ta _) | .s .cast | .s .cond | .s .msg | .s .exec | .s .input => true
    | _ => false
  insort := ins
  taSort s := s = .message || s = .condition
  evaluated s := s = .bool || s = .bitstring
  ins := []

/-- When `A(i)` happens, the cell contains then what `A(i)` writes. -/
def query : Fm GF :=
  .quant .all [i0] (.app (.s (.bool .imp)) [.app (.s .happens) [.app (.s (.step 1)) [.var i0]],
    .app (.s (.bool .eq)) [.app (.s .evalMsg) [.app (.s (.cell 0)) [.app (.s (.step 1)) [.var i0]]],
      .app (.s .evalMsg) [.app (.s (.user 2)) [.var i0]]]])

def prob (names symbolic : Bool) : Prob GF where
  K := K names symbolic
  I := info
  P := proto
  ι := .s
  builtin f := match f with
    | .s (.bool _) | .ite => true
    | _ => false
  isName f := match f with
    | .s (.name _) => true
    | _ => false
  dest := .dest
  crypto := [.cell, .unfolding true true]
  assertions := [.app (.s .happens) [.app (.s (.step 0)) []]]
  query := query
  vampire := false
  define := true
  instances := true
  fuel := 100

/-- The file is written, in all four cases. -/
theorem written : ∀ n s, ((prob n s).file).isSome = true := by decide

def file (n s : Bool) : GenFile GF := ((prob n s).file).get (written n s)

theorem file_eq (n s : Bool) : (prob n s).file = some (file n s) := by simp [file]

/-- `C71_declared_once`: the symbols are different. -/
theorem symbols_nodup : ∀ n s, ((prob n s).symbols ++ (prob n s).destructors).Nodup := by decide

example (n s : Bool) : ((file n s).declarations.flatMap syms).Nodup :=
  (C71_declared_once (file_eq n s) (symbols_nodup n s)).1

theorem sortsOK (n s : Bool) : SortsOK (prob n s) where
  nodup := by cases n <;> cases s <;> decide
  message := by cases n <;> cases s <;> decide
  evalSort a b := by
    show (if a = .message then some Srt.bitstring else if a = .condition then some .bool else none) = some b ↔ _
    cases a <;> simp [eq_comm]
  sig := by cases n <;> cases s <;> decide
  cons := by
    have key : ∀ n s, ∀ f ∈ (prob n s).K.E.functions, (prob n s).isName f = true ∨ ((prob n s).I.ta f = true ∧ s = true) →
        (prob n s).K.E.L.out f = some .name ∨
          s = true ∧ ((prob n s).K.E.L.out f = some .message ∨ (prob n s).K.E.L.out f = some .condition) := by decide
    intro f hf h so ho
    rcases key n s f hf h with h' | ⟨h1, h' | h'⟩
    · rw [ho] at h'; cases h'; exact .inl rfl
    · rw [ho] at h'; cases h'; exact .inr ⟨h1, .inl rfl⟩
    · rw [ho] at h'; cases h'; exact .inr ⟨h1, .inr rfl⟩

example (n s : Bool) : ((file n s).declarations.flatMap sorts).Nodup := C71_sorts_once (file_eq n s) (sortsOK n s)

/-- `C71_sorts_declared`: with names, in both realms. -/
example (s : Bool) : ∀ pre post d, (file true s).declarations = pre ++ d :: post →
    ∀ t ∈ uses ins out d, t = .bool ∨ t ∈ (pre ++ [d]).flatMap sorts := by
  intro pre post d hd
  have hm : (prob true s).built .name := ⟨.s (.name 0), by cases s <;> decide, rfl, .inl rfl, rfl⟩
  refine C71_sorts_declared (file_eq true s) (sortsOK true s) hm ?_ hd
  intro h
  refine ⟨⟨.s (.user 0), by cases s <;> decide, rfl, .inr ⟨rfl, h⟩, rfl⟩, ⟨.s (.user 1), by cases s <;> decide, rfl, .inr ⟨rfl, h⟩, rfl⟩⟩

/-- `C71_name_sort_counterexample`: without names the sort of the argument of the cast is not declared. -/
example : (∃ d ∈ (file false false).declarations, Srt.name ∈ uses ins out d) ∧
    Srt.name ∉ (file false false).declarations.flatMap sorts := by
  have hno : ¬ (prob false false).built .name := by
    rintro ⟨f, hf, hb, hc, ho⟩
    have key : ∀ f ∈ functions false, out f ≠ some .name := by decide
    exact key f hf ho
  have := C71_name_sort_counterexample (file_eq false false) (sortsOK false false) hno (cast := .s .cast) (by decide) rfl rfl
  exact ⟨this.1, this.2.1⟩

/-- `C71_evaluated_counterexample`: the query `eval(user1(i))`, in the evaluated realm. -/
def prob' : Prob GF := { prob true false with query := .app (.s .evalCond) [.app (.s (.user 1)) [.app (.s (.user 0)) []]] }
theorem written' : (prob'.file).isSome = true := by decide

example : (∃ ts', Ax.query (.app (.s (.userEv 1)) ts') ∈ ((prob'.file).get written').assertions) ∧
    .s (.userEv 1) ∉ ((prob'.file).get written').declarations.flatMap syms :=
  C71_evaluated_counterexample (P := prob') (by simp) (.inl rfl) (e := .s .evalCond) (f := .s (.user 1)) rfl rfl rfl (by decide)

/-- `C71_datatypes`: in the symbolic realm messages are a datatype with six constructors. -/
example : (file true true).declarations.any (fun d => match d with
    | .datatypes cs => cs.any fun c => c.1 == .message && c.2.length == 6
    | _ => false) = true := by decide

/-! ### The symbolic realm -/

def skind : GF → SKind
  | .s (.bool .tru) => .tru
  | .s (.bool .fls) => .fls
  | .s (.bool .and) => .and
  | .s (.bool .or) => .or
  | .s (.bool .not) => .not
  | .s (.bool .imp) => .imp
  | .s (.bool .eq) => .eq
  | .ite => .ite
  | .s .evalMsg | .s .evalCond => .evaluate
  | _ => .fn

def sortName : Srt → SmtM.Txt
  | .bool => ['B', 'o', 'o', 'l']
  | .message => ['M', 'e', 's', 's']
  | .condition => ['C', 'o', 'n', 'd']
  | .step => ['T', 'i', 'm', 'e']
  | .name => ['N', 'a', 'm', 'e']
  | .bitstring => ['S']
  | .index => ['I', 'n', 'd', 'e']
  | .user n => 'U' :: List.replicate n 'u'

def S : SymInfo GF where
  kind := skind
  name f := 'z' :: List.replicate (Encodable.encode f) 'q'
  insort := ins
  outsort := out
  sortName := sortName

theorem printer (n s : Bool) : Printer (prob n s) S := ⟨rfl, rfl, rfl, rfl, rfl, rfl, rfl, rfl, rfl⟩

theorem cellWF : CellWF proto.maxVar cel where
  low := by decide
  args := by decide
  content := by decide
  len := by decide

theorem assigns (n s : Bool) : Assigns (prob n s) cel asg (.user 2) [.var i0] where
  cell := List.mem_singleton_self _
  assign := List.mem_singleton_self _
  wf := cellWF
  nodup := by decide
  vars := by
    intro v hv
    have : v = i0 := by simpa [asg, stA] using hv
    subst this
    exact ⟨by cases n <;> cases s <;> decide, .inl rfl⟩
  content := rfl
  other := nofun
  sort := ⟨by cases n <;> cases s <;> decide, rfl, rfl, [.index], rfl, ⟨by simp [asg, stA], rfl⟩, trivial⟩
  step := ⟨by cases n <;> cases s <;> decide, rfl, rfl, [.index], rfl, ⟨by simp [asg, stA], rfl⟩, trivial⟩
  args := trivial
  function := ⟨by cases n <;> cases s <;> decide, rfl⟩
  sorts := ⟨rfl, rfl⟩

/-- `C71_cells_counterexample`: in the symbolic realm this problem has no model, whatever is asked. -/
example : ∃ as q, (file true true).assertions = as ++ [.query q] ∧
    ∀ (D : Type) (M : Str GF D) ev, ¬ Models S ev M ⟨as, (file true true).declarations⟩ :=
  C71_cells_counterexample (file_eq true true) rfl (List.mem_cons_self) (assigns true true) rfl rfl (printer true true)

/-! ### The evaluated realm: an execution -/

abbrev acts : List (Nat × List Nat) := [(0, []), (1, [0]), (1, [1])]

/-- What `A(i)` writes in the cell. The instances that do not happen must write the same, see
`C12_undefined_counterexample`. -/
def written2 (i : Nat) : V := if (1, [i]) ∈ acts then .msg (i + 1) else .msg 0

/-- The condition of `A(i)` is that `i` is 0. -/
def user : Nat → List V → V
  | 1, l => .tt (l = [.idx 0])
  | 2, [a] => written2 a.toIdx
  | _, _ => .msg 0

/-- The contents of the cell, and the message of a point. -/
def memory : V → V
  | .pt 1 [i] => written2 i
  | _ => .msg 0

/-- Conditions and `exec`. -/
def cond : V → V
  | .pt 1 [i] => .tt (i = 0)
  | _ => .tt True

def rest : Sym → List V → V
  | .bool .eq, l => .tt (∀ a ∈ l, ∀ b ∈ l, a = b)
  | .gt, [a, b] => .tt (¬ ∃ i j : Nat, i < j ∧ (acts.map V.ofAct)[i]? = some b ∧ (acts.map V.ofAct)[j]? = some a)
  | .ta _, _ => .tt True
  | .user n, l => user n l
  | .userEv n, l => user n l
  | .cell _, [d] | .msg, [d] => memory d
  | .cond, [d] | .exec, [d] => cond d
  | .evalMsg, [d] | .evalCond, [d] => d
  | .name _, l => .pt 99 (l.map V.toIdx)
  | _, _ => .msg 0

noncomputable def fn : GF → List V → V
  | .s x, l => (stdStr acts rest).fn x l
  | .dest (.s (.name 0)) 0, [.pt _ [n]] => .idx n
  | .ite, [c, a, b] => open Classical in if c.truth then a else b
  | _, _ => .msg 0

def dom : Srt → V → Prop
  | .step, d => d ∈ acts.map V.ofAct ∨ d = .undef
  | .index, d => ∃ n, d = .idx n
  | .bool, d | .condition, d => ∃ p, d = .tt p
  | .message, d | .bitstring, d => ∃ n, d = .msg n
  | .name, d => ∃ n, d = .pt 99 [n]
  | .user _, _ => True

noncomputable def M : Str GF V where
  fn := fn
  truth := V.truth
  ofProp := V.tt
  truth_ofProp _ := Iff.rfl
  dom := dom

theorem logic : Logic (M.comap GF.s) where
  tru := rfl
  fls := rfl
  and _ := rfl
  or _ := rfl
  not _ := rfl
  imp _ _ := rfl
  eq _ _ := rfl

theorem seq : ActSeq proto (0, []) [(1, [0]), (1, [1])] where
  nodup := by decide
  fids := by simp [proto, stInit, stA]
  index := by simp [proto, stInit, stA]
  init := by
    intro i hi
    simp [proto, Protocol.init] at hi
    subst hi
    exact ⟨rfl, rfl⟩
  inst := by simp [proto, stInit, stA]

theorem inDoms_iff : ∀ (vs : List Var), (∀ v ∈ vs, v.sort = .index) → ∀ ds,
    InDoms (M.comap GF.s) vs ds ↔ InDoms (stdStr acts rest) vs ds
  | [], _, [] => Iff.rfl
  | [], _, _ :: _ => Iff.rfl
  | _ :: _, _, [] => Iff.rfl
  | v :: vs, h, d :: ds => by
    refine and_congr ?_ (inDoms_iff vs (fun w hw => h w (by simp [hw])) ds)
    rw [h v (by simp)]
    exact Iff.rfl

abbrev points : List V := acts.map V.ofAct

theorem run : IsRun (M.comap GF.s) proto points .undef (.pt 0 []) := by
  have h := stdStr_run seq rest
  have hi := seq.index
  exact {
    nodup := h.nodup
    undef_not := h.undef_not
    head := h.head
    dom_step := h.dom_step
    happens := h.happens
    leq := h.leq
    lt := h.lt
    pred_succ := h.pred_succ
    pred_first := h.pred_first
    pred_undef := h.pred_undef
    init := h.init
    inst := fun s hs as has => h.inst s hs as ((inDoms_iff _ (hi s hs) _).1 has)
    inj := fun s hs s' hs' as bs has hbs => h.inj s hs s' hs' as bs ((inDoms_iff _ (hi s hs) _).1 has)
      ((inDoms_iff _ (hi s' hs') _).1 hbs)
    surj := fun d hd => by
      obtain ⟨s, hs, as, has, e⟩ := h.surj d hd
      exact ⟨s, hs, as, (inDoms_iff _ (hi s hs) _).2 has, e⟩ }

theorem execution : Execution (prob true false) M points .undef (.pt 0 []) where
  logic := logic
  run := run
  wf := by simp [prob, proto, stInit, stA, Step.WF]
  nodup := by decide
  orders := by
    intro o ho ρ
    simp only [prob, proto, List.mem_cons, List.not_mem_nil, or_false] at ho
    subst ho
    refine (C10_ordering logic run.toIsTrace [i0] none .lt stInit.formula stA.formula ρ).1.2 ?_
    intro ds _ _ hmem
    obtain ⟨j, hj⟩ := List.mem_iff_getElem?.1 hmem
    exact ⟨0, j, Nat.zero_le _, rfl, hj⟩
  gt := by
    intro ρ
    rw [gtAxiom, holds_forall, quantVal_all]
    intro ds hds
    match ds, hds with
    | [a, b], _ =>
      show ¬ ((M.comap GF.s).fn .gt [_, _] = (M.comap GF.s).fn .lt [_, _])
      intro h
      have h : V.tt _ = V.tt _ := h
      have h := V.tt.inj h
      exact iff_not_self (Iff.of_eq h.symm)
  ok := {
    base := by
      intro f args o ev h
      simp only [prob, K, E, ekind] at h
      split at h <;> cases h <;> rfl
    conn := by
      intro f args ev h
      simp only [prob, K, E, ekind] at h
      split at h <;> cases h <;> rfl
    eqTa := by
      intro f h
      simp only [prob, K, E, ekind] at h
      split at h <;> cases h
    notTa := by
      intro f h
      simp only [prob, K, E, ekind] at h
      split at h <;> cases h
    ite := by
      intro f h
      simp only [prob, K, E, ekind] at h
      split at h <;> cases h
    taq := by
      intro f q b fr c h
      simp only [prob, K, E, ekind] at h
      split at h <;> cases h
    fst := by
      intro f b fr c c' c'' h
      simp only [prob, K, E, ekind] at h
      split at h <;> cases h
    skolem_inj := by
      intro f g i j h
      exact GF.sk.inj h
    skolem_logic := fun f i => ⟨nofun, nofun, nofun, nofun, nofun, nofun, nofun⟩
    skolem_ev := by
      intro f i s e h
      simp only [prob, K, E, List.lookup_cons, List.lookup_nil] at h
      split at h
      · cases h; nofun
      · split at h
        · cases h; nofun
        · cases h
    skolem_kind := fun f i => rfl
    skolem_eval := by
      intro f i g g' h e
      subst e
      simp only [prob, K, E, Cfg.evaluated, ekind] at h
      split at h <;> rename_i h' <;> first
        | (cases h; split at h' <;> cases h')
        | cases h }
  logical := by
    refine ⟨⟨?_, ?_, ?_, ?_⟩, ?_, ?_, ?_, ?_⟩
    · intro a b; exact Iff.rfl
    · intro l; exact Iff.rfl
    · intro l; exact Iff.rfl
    · exact trivial
    · intro a b; exact Iff.rfl
    · intro a; exact Iff.rfl
    · intro c a b h; exact if_pos h
    · intro c a b h; exact if_neg h
  homo := {
    base := by
      intro f args o ev h ds hds
      simp only [prob, K, E, ekind] at h
      split at h <;> cases h
      · cases hds; rfl
      · match ds, hds with
        | [a], _ => rfl
      · match ds, hds with
        | [a], _ => rfl
    conn := by
      intro f args ev h ds hds
      simp only [prob, K, E, ekind] at h
      split at h <;> cases h
      cases hds; rfl
    eqTa := by
      intro f h
      simp only [prob, K, E, ekind] at h
      split at h <;> cases h
    notTa := by
      intro f h
      simp only [prob, K, E, ekind] at h
      split at h <;> cases h
    ite := by
      intro f h
      simp only [prob, K, E, ekind] at h
      split at h <;> cases h
    taq := by
      intro f q b fr c h
      simp only [prob, K, E, ekind] at h
      split at h <;> cases h
    fst := by
      intro f b fr c c' c'' h
      simp only [prob, K, E, ekind] at h
      split at h <;> cases h }
  skolem := by
    intro f bound free cnd succ fail h
    simp only [prob, K, E, ekind] at h
    split at h <;> cases h
  ident := by
    intro _ s e h d hd
    simp only [prob, K, E, List.mem_cons, Prod.mk.injEq, List.not_mem_nil, or_false] at h
    rcases h with ⟨rfl, rfl⟩ | ⟨rfl, rfl⟩ <;> rfl
  legacy := rfl

theorem points_cases {t : V} (h : t ∈ points) : t = .pt 0 [] ∨ t = .pt 1 [0] ∨ t = .pt 1 [1] := by
  simpa [points, acts, V.ofAct] using h

theorem step_doms {d : V} (h : (M.comap GF.s).dom .step d) : d = .pt 0 [] ∨ d = .pt 1 [0] ∨ d = .pt 1 [1] ∨ d = .undef := by
  rcases h with h | h
  · rcases points_cases h with h | h | h <;> simp [h]
  · simp [h]

theorem unfolds : UnfoldOK (prob true false) (M.comap GF.s) points true true where
  prop d := by
    refine ⟨V.truth (cond d), ?_⟩
    show cond d = V.tt _
    unfold cond
    split <;> rfl
  macros := by
    intro ρ s hs as has hm
    simp only [prob, proto, List.mem_cons, List.not_mem_nil, or_false] at hs
    rcases hs with rfl | rfl
    · match as, has with
      | [], _ => exact ⟨rfl, rfl⟩
    · match as, has with
      | [a], has =>
        obtain ⟨n, rfl⟩ : ∃ n, a = .idx n := has.1
        have e : (M.comap GF.s).fn (.step 1) [.idx n] = if (1, [n]) ∈ acts then .pt 1 [n] else .undef := rfl
        have hm' : (M.comap GF.s).fn (.step 1) [.idx n] ∈ points := hm
        have hin : (1, [n]) ∈ acts := by
          by_contra hno
          rw [e, if_neg hno] at hm'
          exact run.undef_not hm'
        rw [if_pos hin] at e
        show (M.comap GF.s).fn .evalCond [(M.comap GF.s).fn .cond [(M.comap GF.s).fn (.step 1) [.idx n]]] = _ ∧
          (M.comap GF.s).fn .evalMsg [(M.comap GF.s).fn .msg [(M.comap GF.s).fn (.step 1) [.idx n]]] = _
        rw [e]
        constructor
        · show V.tt (n = 0) = V.tt ([_] = [V.idx 0])
          congr 1
          show (n = 0) = ([V.idx n] = [V.idx 0])
          simp
        · show written2 n = memory ((M.comap GF.s).fn (.step 1) [.idx n])
          rw [e]
          rfl
  init t ht := by
    cases ht
    exact trivial
  exec := by
    intro _ i t ht
    match i, ht with
    | 0, ht =>
      cases ht
      exact ⟨fun _ j e h1 h2 => by omega, fun _ => trivial⟩
    | 1, ht =>
      cases ht
      refine ⟨fun _ j e h1 h2 he => ?_, fun _ => rfl⟩
      obtain rfl : j = 1 := by omega
      cases he
      exact (rfl : (0 : Nat) = 0)
    | 2, ht =>
      cases ht
      refine ⟨fun h => ?_, fun h => h 2 _ (by omega) (by omega) rfl⟩
      exact absurd (show (1 : Nat) = 0 from h) (by decide)
    | i + 3, ht => cases ht
  direct := fun _ t ht => Iff.rfl

theorem cells : ∀ c ∈ (prob true false).P.cells, CellOK (prob true false) (M.comap GF.s) c := by
  refine List.forall_mem_singleton.2 ⟨cellWF, ?_, ?_⟩
  · rintro ρ ks d hk hd v ⟨a, ha, ds, hds, h1, h2, h3⟩
    obtain rfl := List.mem_singleton.1 ha
    match ds, hds with
    | [x], hds =>
      obtain ⟨n, rfl⟩ : ∃ n, x = .idx n := hds.1
      subst h2 h3
      have e : (M.comap GF.s).fn (.step 1) [.idx n] = if (1, [n]) ∈ acts then .pt 1 [n] else .undef := rfl
      have h1 : (M.comap GF.s).fn (.step 1) [.idx n] = d := h1
      show memory d = written2 n
      by_cases hin : (1, [n]) ∈ acts
      · rw [if_pos hin] at e
        rw [← h1, e]
        rfl
      · rw [if_neg hin] at e
        rw [← h1, e, written2, if_neg hin]
        rfl
  · intro ρ ks d hk hd hw
    match ks, hk with
    | [], _ =>
      show memory d = memory ((M.comap GF.s).fn .pred [d])
      rcases step_doms hd with rfl | rfl | rfl | rfl
      · rw [run.pred_first]; rfl
      · exact absurd ⟨asg, List.mem_singleton_self _, [.idx 0], ⟨⟨0, rfl⟩, trivial⟩, rfl, rfl, rfl⟩ (hw (.msg 1))
      · exact absurd ⟨asg, List.mem_singleton_self _, [.idx 1], ⟨⟨1, rfl⟩, trivial⟩, rfl, rfl, rfl⟩ (hw (.msg 2))
      · rw [run.pred_undef]

/-! ### The declarations, and the text -/

theorem std : Std S M := by
  constructor
  all_goals
    intro f hf
    simp only [S, skind] at hf
    split at hf <;> cases hf
  · rfl
  · rfl
  · intro l; rfl
  · intro l; rfl
  · intro l
    show (stdStr acts rest).fn (.bool .eq) l = _
    match l with
    | [] => rfl
    | [_] => rfl
    | [a, b] =>
      show V.tt (a = b) = V.tt _
      congr 1
      apply propext
      simp only [List.mem_cons, List.not_mem_nil, or_false, forall_eq_or_imp, forall_eq, true_and, and_true]
      exact ⟨fun h => ⟨h, h.symm⟩, fun h => h.1⟩
    | _ :: _ :: _ :: _ => rfl
  · intro a; rfl
  · intro a b; rfl
  · intro c a b; rfl

theorem noop (ev : Bool) : Noop S ev M := by
  rintro - f hf d
  simp only [S, skind] at hf
  split at hf <;> cases hf <;> rfl

end GEx
end Gen
end CV
