import Verif.IntCtxtProps
import Verif.SearchEx
set_option linter.unusedSimpArgs false
set_option linter.unnecessarySeqFocus false
/-
Structures with integrity of ciphertexts; a problem that meets the hypotheses of C64, and problems for which false,
open or ill-sorted axioms are generated.
-/
namespace CV
namespace Cry
namespace IEx
open Dep SmtM Ev Fm

/-- The symbols. -/
inductive Z
  | eq | and | or | imp | tru | lt | not | ite | sub | evm | evc
  | s | t | input | enc | dec | fail | k | r | r2 | cast | p | q | g | chk | ok
  deriving DecidableEq

def out : Z → Srt
  | .eq | .and | .or | .imp | .tru | .lt | .not | .sub | .evc => .bool
  | .s | .t => .step
  | .chk | .ok => .condition
  | .k | .r | .r2 => .name
  | .evm => .bitstring
  | _ => .message

abbrev lang (kind : Z → Kind Z) : Lang Z where
  eq := .eq
  and := .and
  or := .or
  imp := .imp
  tru := .tru
  lt := .lt
  kind := kind
  out f := some (out f)
  infer _ _ := none

/-- The three protocols. -/
inductive Mode | good | reuse | leak
  deriving DecidableEq

def theKey : Tm Z := .node .cast [.node .k []]
def sent : Tm Z := .node .enc [.node .p [], .node .cast [.node .r []], theKey]
def first : Tm Z := .node .input [.node .s [.atom 1]]

open Classical in
/-- The value of messages: decryption undoes encryption, and fails on all other messages except the input at `s(1)`, which
is the ciphertext sent at `s(0)`, or another one when the protocol is not good. -/
noncomputable def val (m : Mode) : Tm Z → Tm Z
  | .node .dec [.node .enc [x, _, k'], k] => if k = k' then val m x else .node .fail []
  | .node .dec [c, k] => if c = first ∧ k = theKey then .node .p [] else .node .fail []
  | .node .input l => if Tm.node .input l = first then if m = .good then sent else .node .g [] else .node .input l
  | t => t

def rank (d : Tm Z) (n : Nat) : Prop := (d = .node .t [] ∧ n = 0) ∨ ∃ i, d = .node .s [.atom i] ∧ n = i + 1

def ord (a b : Tm Z) : Prop := ∃ i j : Nat, rank a i ∧ rank b j ∧ i < j

open Classical in
noncomputable def fn (m : Mode) : Z → List (Tm Z) → Tm Z
  | .eq, l => binary Eq l
  | .and, l => .prop (∀ d ∈ l, d.truth)
  | .or, l => .prop (∃ d ∈ l, d.truth)
  | .imp, [a, b] => .prop (a.truth → b.truth)
  | .tru, _ => .prop True
  | .lt, l => binary ord l
  | .not, [a] => .prop (¬ a.truth)
  | .ite, [c, a, b] => if c.truth then a else b
  | .sub, l => binary Eq l
  | .evm, [a] => .node .evm [val m a]
  | f, l => .node f l

noncomputable def M (m : Mode) : Str Z (Tm Z) where
  fn := fn m
  truth := Tm.truth
  ofProp := .prop
  truth_ofProp _ := Iff.rfl
  dom s d := s = .index → ∃ n, d = .atom n

abbrev E (kind : Z → Kind Z) : Ev.Cfg Z where
  L := lang kind
  not := .not
  ite := .ite
  evs := [(.message, .evm), (.condition, .evc)]
  evalSort s := if s = .message then some .bitstring else if s = .condition then some .bool else none
  kind _ := .other
  functions := []
  sorts := [.message, .condition]
  symbolic := true
  noBitstring := false
  legacy := false
  rewriteFn _ := .p
  skolem _ _ := .p

theorem logical (m : Mode) (kind : Z → Kind Z) : Logical (E kind) (M m) := by
  refine ⟨⟨?_, ?_, ?_, ?_⟩, ?_, ?_, ?_, ?_⟩
  · intro a b; exact Iff.rfl
  · intro l; exact Iff.rfl
  · intro l; exact Iff.rfl
  · exact trivial
  · intro a b; exact Iff.rfl
  · intro a; exact Iff.rfl
  · intro c a b h; exact if_pos h
  · intro c a b h; exact if_neg h

/-- The symbols that are not constructors. -/
def special : Z → Bool
  | .eq | .and | .or | .imp | .tru | .lt | .not | .ite | .sub | .evm => true
  | _ => false

theorem fn_con {m : Mode} {f : Z} (h : special f = false) (l : List (Tm Z)) : (M m).fn f l = .node f l := by
  cases f <;> first | rfl | (simp [special] at h)

theorem val_enc (m : Mode) (l : List (Tm Z)) : val m (.node .enc l) = .node .enc l := by
  rw [val] <;> simp

/-- Going through conditionals. -/
inductive Down : Fm Z → Fm Z → Prop
  | ite {args a} (h : a ∈ args) : Down (.app .ite args) a

/-- Where a value built by a constructor comes from. -/
theorem shape (m : Mode) (ρ : Valn (Tm Z)) (t : Fm Z) : NoQuant t → (∀ v ∈ t.vars, ∃ n, ρ v.id = .atom n) →
    ∀ f l, special f = false → Fm.eval (M m) ρ t = .node f l → ∃ args, Relation.ReflTransGen Down t (.app f args) ∧
      evals (M m) ρ args = l := by
  induction t using Fm.ind with
  | hvar v =>
    intro _ hv f l _ h
    obtain ⟨n, hn⟩ := hv v (by simp [Fm.vars])
    simp only [Fm.eval, hn] at h
    cases h
  | hquant q vs b _ => intro hn; cases hn
  | happ h args ih =>
    intro hn hv f l hf he
    have go : ∀ a ∈ args, Down (.app h args) a → Fm.eval (M m) ρ a = .node f l →
        ∃ args', Relation.ReflTransGen Down (.app h args) (.app f args') ∧ evals (M m) ρ args' = l := by
      intro a ha hd hea
      obtain ⟨t', h1, h2⟩ := ih a ha (hn.arg ha) (fun v hv' => hv v (vars_arg ha hv')) f l hf hea
      exact ⟨t', h1.head hd, h2⟩
    by_cases hs : special h = false
    · simp only [Fm.eval] at he
      rw [fn_con hs] at he
      simp only [Tm.node.injEq] at he
      obtain ⟨rfl, rfl⟩ := he
      exact ⟨_, .refl, rfl⟩
    · simp only [Fm.eval, evals_eq] at he
      change fn m h (args.map (Fm.eval (M m) ρ)) = _ at he
      cases h <;> simp only [special, not_true_eq_false, Bool.true_eq_false, not_false_eq_true] at hs
      · simp only [fn, binary] at he; split at he <;> cases he
      · cases he
      · cases he
      · match args, he with
        | [], he => simp only [fn, List.map, Tm.node.injEq] at he; obtain ⟨rfl, _⟩ := he; cases hf
        | [_], he => simp only [fn, List.map, Tm.node.injEq] at he; obtain ⟨rfl, _⟩ := he; cases hf
        | [_, _], he => cases he
        | _ :: _ :: _ :: _, he => simp only [fn, List.map, Tm.node.injEq] at he; obtain ⟨rfl, _⟩ := he; cases hf
      · cases he
      · simp only [fn, binary] at he; split at he <;> cases he
      · match args, he with
        | [], he => simp only [fn, List.map, Tm.node.injEq] at he; obtain ⟨rfl, _⟩ := he; cases hf
        | [_], he => cases he
        | _ :: _ :: _, he => simp only [fn, List.map, Tm.node.injEq] at he; obtain ⟨rfl, _⟩ := he; cases hf
      · match args, he, go with
        | [], he, _ => simp only [fn, List.map, Tm.node.injEq] at he; obtain ⟨rfl, _⟩ := he; cases hf
        | [_], he, _ => simp only [fn, List.map, Tm.node.injEq] at he; obtain ⟨rfl, _⟩ := he; cases hf
        | [_, _], he, _ => simp only [fn, List.map, Tm.node.injEq] at he; obtain ⟨rfl, _⟩ := he; cases hf
        | [c, a, b], he, go =>
          simp only [fn, List.map] at he
          split at he
          · exact go a (by simp) (.ite (by simp)) he
          · exact go b (by simp) (.ite (by simp)) he
        | _ :: _ :: _ :: _ :: _, he, _ => simp only [fn, List.map, Tm.node.injEq] at he; obtain ⟨rfl, _⟩ := he; cases hf
      · simp only [fn, binary] at he; split at he <;> cases he
      · match args, he with
        | [], he => simp only [fn, List.map, Tm.node.injEq] at he; obtain ⟨rfl, _⟩ := he; cases hf
        | [a], he => simp only [fn, List.map, Tm.node.injEq] at he; obtain ⟨rfl, _⟩ := he; cases hf
        | _ :: _ :: _, he => simp only [fn, List.map, Tm.node.injEq] at he; obtain ⟨rfl, _⟩ := he; cases hf

theorem down_occurs {m : Mode} {kind : Z → Kind Z} {steps : List (GStep Z)} {X : MacroRef Z → Prop} {t t' : Fm Z} (ρ : Valn (Tm Z))
    (h : Relation.ReflTransGen Down t t') : Occurs (lang kind) steps (M m) ArgOf X (t, ρ) (t', ρ) := by
  induction h with
  | refl => exact .refl
  | tail _ h ih =>
    refine ih.tail (.inl (.inl (.part ?_)))
    cases h with
    | ite h => exact .mk h

/-! ### The protocols -/

def x0 : Var := ⟨0, .index⟩
def kF : Fm Z := .app .cast [.app .k []]
def inp (v : Var) : Fm Z := .app .input [.app .s [.var v]]
def encP : Fm Z := .app .enc [.app .p [], .app .cast [.app .r []], kF]

/-- What the first step sends: another encryption, another encryption with the same randomness, or the randomness. -/
def msgT : Mode → Fm Z
  | .good => .app .enc [.app .q [], .app .cast [.app .r2 []], kF]
  | .reuse => .app .enc [.app .q [], .app .cast [.app .r []], kF]
  | .leak => .app .cast [.app .r []]

def stepT (m : Mode) : GStep Z := ⟨.t, [], .app .ok [], msgT m⟩

/-- A step that decrypts its input and sends an encryption of `p`. -/
def stepS : GStep Z := ⟨.s, [x0], .app .chk [.app .dec [inp x0, kF]], encP⟩

def kind (m : Mode) : Z → Kind Z
  | .s => .step stepS
  | .t => .step (stepT m)
  | .input => .mac .input
  | _ => .plain

abbrev steps (m : Mode) : List (GStep Z) := [stepT m, stepS]

def graph : PreGraph Z := ⟨⟨true, []⟩, ⟨true, []⟩, []⟩

theorem built (m : Mode) : Built (kind m) (steps m) [] graph := by
  cases m <;> exact ⟨100, 100, _, rfl, rfl⟩

abbrev K (m : Mode) : Pbl Z where
  E := E (kind m)
  cast := .cast
  eqTa := .eq
  toBits := .evm
  steps := steps m
  cells := []
  G := graph
  tops := [(stepT m).condition, (stepT m).message, stepS.condition, stepS.message]
  fuel := 100
  mfuel := 10

abbrev X : Ctx Z := ⟨.enc, .dec, .fail, true, fun _ => some .sub, true, fun _ => some .sub, true, fun _ => some .sub⟩

/-- The candidate found. -/
def cand : DecCand Z := ⟨inp ⟨1, .index⟩, .app .k []⟩

theorem cands (m : Mode) : X.candidates (K m) = some [cand] := by cases m <;> decide +kernel

theorem steps_cases {m : Mode} {P : GStep Z → Prop} (h1 : P (stepT m)) (h2 : P stepS) : ∀ s ∈ steps m, P s :=
  List.forall_mem_cons.2 ⟨h1, List.forall_mem_singleton.2 h2⟩

theorem nq (t : Fm Z) (h : overB (fun _ => true) t = true) : NoQuant t :=
  (over_of_b (S := fun _ => True) (fun _ _ => trivial) t h).noQuant

theorem prot (m : Mode) : ProtOK (lang (kind m)) (steps m) [] := by
  refine ⟨?_, ?_, ?_, nofun, nofun, ?_, ?_⟩
  · exact steps_cases ⟨nq _ (by cases m <;> decide +kernel), by cases m <;> decide +kernel⟩ ⟨nq _ (by decide +kernel), by decide +kernel⟩
  · exact steps_cases ⟨nq _ (by cases m <;> decide +kernel), by cases m <;> decide +kernel⟩ ⟨nq _ (by decide +kernel), by decide +kernel⟩
  · exact steps_cases (by cases m <;> decide) (by decide)
  · intro f c h
    cases f <;> simp [kind] at h
  · intro f b fr cs h
    cases f <;> simp [kind] at h

theorem clean_app {m : Mode} {f : Z} (h : kind m f = .plain) (args : List (Fm Z)) (ha : ∀ a ∈ args, Clean (kind m) [] a) :
    Clean (kind m) [] (.app f args) := .other (.inl h) ha

theorem clean_cast (m : Mode) {f : Z} (h : kind m f = .plain) : Clean (kind m) [] (.app .cast [.app f []]) :=
  clean_app rfl _ (List.forall_mem_singleton.2 (clean_app h _ nofun))

theorem clean_enc (m : Mode) {f f' : Z} (hf : kind m f = .plain) (hg : kind m f' = .plain) :
    Clean (kind m) [] (.app .enc [.app f [], .app .cast [.app f' []], kF]) :=
  clean_app rfl _ (List.forall_mem_cons.2 ⟨clean_app hf _ nofun, List.forall_mem_cons.2 ⟨clean_cast m hg,
    List.forall_mem_singleton.2 (clean_cast m rfl)⟩⟩)

theorem good (m : Mode) : GoodProt (kind m) (steps m) [] := by
  refine ⟨by simp, steps_cases ⟨clean_app rfl _ nofun, ?_⟩ ⟨?_, clean_enc m rfl rfl⟩, nofun⟩
  · cases m
    · exact clean_enc _ rfl rfl
    · exact clean_enc _ rfl rfl
    · exact clean_cast _ rfl
  · exact clean_app rfl _ (List.forall_mem_singleton.2 (clean_app rfl _ (List.forall_mem_cons.2
      ⟨Dep.Clean.input (g := Z.s) rfl rfl, List.forall_mem_singleton.2 (clean_cast m rfl)⟩)))

theorem own_app {m : Mode} {s : GStep Z} {f : Z} (h : f ≠ .input) (args : List (Fm Z)) (ha : ∀ a ∈ args, Own (lang (kind m)) (some s) a) :
    Own (lang (kind m)) (some s) (.app f args) := by
  refine .app ?_ ?_ ?_ nofun ?_ ha
  · cases f <;> simp [kind]
  · cases f <;> simp [kind]
  · cases f <;> simp [kind]
  · intro s _ hk
    cases f <;> simp [kind] at hk h

theorem own_cast (m : Mode) (s : GStep Z) {f : Z} (h : f ≠ .input) : Own (lang (kind m)) (some s) (.app .cast [.app f []]) :=
  own_app (by decide) _ (List.forall_mem_singleton.2 (own_app h _ nofun))

theorem own_enc (m : Mode) (s : GStep Z) {f f' : Z} (hf : f ≠ .input) (hg : f' ≠ .input) :
    Own (lang (kind m)) (some s) (.app .enc [.app f [], .app .cast [.app f' []], kF]) :=
  own_app (by decide) _ (List.forall_mem_cons.2 ⟨own_app hf _ nofun, List.forall_mem_cons.2 ⟨own_cast m s hg,
    List.forall_mem_singleton.2 (own_cast m s (by decide))⟩⟩)

theorem own (m : Mode) : OwnProt (lang (kind m)) (steps m) [] := by
  refine ⟨steps_cases ?_ (own_enc m _ (by decide) (by decide)), steps_cases (own_app (by decide) _ nofun) ?_, nofun⟩
  · cases m
    · exact own_enc _ _ (by decide) (by decide)
    · exact own_enc _ _ (by decide) (by decide)
    · exact own_cast _ _ (by decide)
  · refine own_app (by decide) _ (List.forall_mem_singleton.2 (own_app (by decide) _ (List.forall_mem_cons.2
      ⟨?_, List.forall_mem_singleton.2 (own_cast m _ (by decide))⟩)))
    refine .app nofun nofun nofun nofun ?_ (List.forall_mem_singleton.2 (own_app (by decide) _ (List.forall_mem_singleton.2 .var)))
    intro s e _; cases e; rfl

theorem noExec (m : Mode) (t : Fm Z) : NoExec (lang (kind m)) t := by
  intro f _
  cases f <;> simp [kind]

theorem rank_fun {d : Tm Z} {i j : Nat} (h : rank d i) (h' : rank d j) : i = j := by
  rcases h with ⟨rfl, rfl⟩ | ⟨i, rfl, rfl⟩ <;> rcases h' with ⟨e, rfl⟩ | ⟨j, e, rfl⟩ <;> simp_all

theorem ord_trans (a b c : Tm Z) : ord a b → ord b c → ord a c := by
  rintro ⟨i, j, h1, h2, h⟩ ⟨j', l, h3, h4, h'⟩
  cases rank_fun h2 h3
  exact ⟨i, l, h1, h4, by omega⟩

theorem setting (m : Mode) : Setting (K m) (M m) where
  logical := logical _ _
  dom _ := ⟨.atom 0, fun _ => ⟨0, rfl⟩⟩
  trans := ord_trans
  prot := prot m
  good := good m
  own := own m
  visible _ h := nomatch h
  inputs := .inl fun _ h => nomatch h
  graph := built m
  stepExec _ _ := ⟨noExec _ _, noExec _ _⟩
  cellExec _ h := nomatch h
  taqExec f _ _ _ h := by cases f <;> simp [kind] at h
  evaluated h d := nomatch h

/-! ### Integrity -/

/-- Which ciphertexts are accepted. -/
theorem accepted {m : Mode} {c key : Tm Z} (h : X.accepts (K m) (M m) c (.node .cast [key])) :
    (∃ x rr, c = .node .enc [x, rr, .node .cast [key]]) ∨ c = first ∧ key = .node .k [] := by
  have h : Tm.node Z.evm [val m (.node .dec [c, .node .cast [key]])] ≠ .node .evm [val m (.node .fail [])] := h
  have h' : val m (.node .dec [c, .node .cast [key]]) ≠ .node .fail [] := by
    intro e
    apply h
    rw [e, val]
    all_goals simp
  by_cases hc : ∃ x rr k', c = .node .enc [x, rr, k']
  · obtain ⟨x, rr, k', rfl⟩ := hc
    left
    rw [val] at h'
    split at h'
    · rename_i e; subst e; exact ⟨x, rr, rfl⟩
    · exact absurd rfl h'
  · right
    rw [val] at h'
    · split at h'
      · rename_i e; refine ⟨e.1, ?_⟩; have := e.2; simp [theKey] at this; exact this
      · exact absurd rfl h'
    · intro x rr k' e; exact hc ⟨x, rr, k', e⟩

theorem content_T (m : Mode) : IsContent (steps m) [] (M m) (msgT m, fun _ => .atom 0) :=
  .message (s := stepT m) (by simp) (fun _ h => nomatch h)
theorem content_S (m : Mode) : IsContent (steps m) [] (M m) (encP, fun _ => .atom 0) :=
  .message (s := stepS) (by simp) (fun _ _ _ => ⟨0, rfl⟩)

/-- The structures have integrity, with indices for variables. In those that are not good, the randomness of the
encryptions under the key `k` is not well used. -/
theorem integrity (m : Mode) : Integrity (lang (kind m)) (steps m) [] (M m) (fun s => s = .index) .enc .dec .cast
    (X.accepts (K m) (M m)) (fun a b => (K m).E.val (M m) .message a = (K m).E.val (M m) .message b) := by
  intro c k ρ hc _ hv hacc _ hr
  rw [fn_con rfl] at hacc
  have hvc : ∀ v ∈ c.vars, ∃ n, ρ v.id = .atom n := by
    intro v hvv
    obtain ⟨h3, h4⟩ := hv v (by simp [hvv])
    exact h4 h3
  rcases accepted hacc with ⟨x, rr, hx⟩ | ⟨hx, hk⟩
  · obtain ⟨args, hd, he⟩ := shape m ρ c hc hvc _ _ rfl hx
    match args, he, hd with
    | [], he, _ => cases he
    | [_], he, _ => simp [evals] at he
    | [_, _], he, _ => simp [evals] at he
    | [a, b, d], he, hd =>
      simp only [evals, List.cons.injEq, and_true] at he
      obtain ⟨rfl, rfl, hk⟩ := he
      obtain ⟨r', rfl⟩ := hr.name _ (.inl (List.mem_singleton_self _)) a b d ρ (down_occurs ρ hd) (by rw [hk, fn_con rfl])
      have e : Fm.eval (M m) ρ (.app .cast [r']) = (M m).fn .cast [Fm.eval (M m) ρ r'] := by simp only [Fm.eval, evals]
      refine ⟨Fm.eval (M m) ρ a, Fm.eval (M m) ρ r', nofun, nofun, ?_, _, ρ, down_occurs ρ hd, ?_⟩
      · simp only [← e, fn_con (f := .enc) rfl, fn_con (m := m) (f := .cast) rfl [Fm.eval (M m) ρ k], ← hx]
      · simp only [Fm.eval, evals, hk, fn_con (f := .cast) rfl]
    | _ :: _ :: _ :: _ :: _, he, _ => simp [evals] at he
  · cases m with
    | good =>
      obtain ⟨args, hd, he⟩ := shape .good ρ c hc hvc _ _ rfl hx
      match args, he, hd with
      | [], he, _ => cases he
      | _ :: _ :: _, he, _ => simp [evals] at he
      | [a], he, hd =>
        simp only [evals, List.cons.injEq, and_true] at he
        refine ⟨.node .p [], .node .r [], nofun, nofun, ?_, _, fun _ => .atom 0, (down_occurs ρ hd).tail
          (.inr ⟨.input, .node .s [.atom 1], trivial, ?_, .inputMsg (s := stepS) (σ := (fun _ => Tm.atom 0 : Valn (Tm Z))) (by simp) ?_ ?_⟩), ?_⟩
        · rw [hx, hk]
          show Tm.node Z.evm [val .good first] = .node .evm [val .good sent]
          rw [show val .good sent = sent from val_enc _ _]
          have : val .good first = sent := by
            unfold first
            rw [val]
            simp [first]
          rw [this]
        · rw [← he]
          exact .input rfl rfl
        · exact fun _ _ _ => ⟨0, rfl⟩
        · exact ⟨1, 2, .inr ⟨0, rfl, rfl⟩, .inr ⟨1, rfl, rfl⟩, by omega⟩
        · rw [hk]; rfl
    | reuse =>
      have := hr.once _ _ (.inr (content_T .reuse)) (.inr (content_S .reuse)) _ _ _ _ _ _ _ _ .refl (by rw [hk]; rfl) .refl rfl
      have := this.1
      have : Tm.node Z.q [] = .node .p [] := this
      simp at this
    | leak =>
      have := hr.only _ (.inr (content_S .leak)) _ _ _ _ .refl (by rw [hk]; rfl)
      exact (this _ (.inr (content_T .leak)) .r [] _ rfl (.tail .refl (.inl (.inl (.part (.other (by decide) (by simp)))))) rfl).elim

/-! ### The searches of the candidate -/

def keyRoots (m : Mode) : List (Fm Z × List Var) := topLevel (steps m) [] ++ [(cand.cipher, [])]
def keyC (m : Mode) : SearchCfg Z := (K m).search (X.key (K m)) false
def mainC (m : Mode) : SearchCfg Z := (K m).search X.main true
def keyElems (m : Mode) : List (Fm Z × UState Z) :=
  visitAll (keyC m) 6 ((keyRoots m).map (fun p => (p.1, ⟨.noRecMacro, p.2, none⟩)))
def mainElems (m : Mode) : List (Fm Z × UState Z) :=
  visitAll (mainC m) 8 [(cand.cipher, ⟨.all, [], none⟩)]

theorem keyClosed (m : Mode) : closedB (keyC m) .noRecMacro (keyRoots m) (keyElems m) = true := by
  cases m <;> decide +kernel
theorem mainClosed (m : Mode) : closedB (mainC m) .all [(cand.cipher, [])] (mainElems m) = true := by
  cases m <;> decide +kernel

theorem outer_iff (m : Mode) (i : Nat) : (K m).decOuter cand i ↔ i = 1 ∨ i = 2 ∨ i = 3 := by
  unfold Pbl.decOuter
  have h1 : (K m).decId cand = 2 := by cases m <;> decide +kernel
  have h2 : (cand.terms.flatMap Fm.vars).map Var.id = [1] := by decide +kernel
  rw [h1, h2, List.mem_singleton]
  omega

theorem inj (m : Mode) : (M m).InjectiveOn (fun f => special f = false) := by
  intro f as bs hf _ h
  rw [fn_con hf, fn_con hf] at h
  simpa using h

theorem complete_of {m : Mode} {C : SearchCfg Z} {f : Z} {as : List (Fm Z)} {l : List (Fm Z)} (hf : special f = false)
    (h : ∀ t ∈ l, (!((mgu C.mfuel (.app f as) t).any Option.isNone) || !(C.A.unified C.L t) ||
      (match t with | .app f' _ => (!special f') && decide (f' ≠ f) | _ => false)) = true) {t : Fm Z} (ht : t ∈ l)
    (hu : C.A.unified C.L t = true) (hm : mgu C.mfuel (.app f as) t = some none) (τ : Valn (Tm Z)) :
    Fm.eval (M m) τ (.app f as) ≠ Fm.eval (M m) τ t := by
  have := h t ht
  simp only [hm, Option.any_some, Option.isNone_none, hu, Bool.not_true, Bool.false_or] at this
  split at this
  · rename_i f' as'
    simp only [Bool.and_eq_true, Bool.not_eq_true', decide_eq_true_eq] at this
    simp only [Fm.eval]
    rw [fn_con hf, fn_con this.1]
    intro e
    injection e with e1 e2
    exact this.2 e1.symm
  · cases this

theorem unif_of {m : Mode} {C : SearchCfg Z} {fl : Flags} {roots : List (Fm Z × List Var)} {E : List (Fm Z × UState Z)} {f : Z} {as : List (Fm Z)}
    (hE : closedB C fl roots E = true) (hf : overB (fun f => !special f) (.app f as) = true)
    (ht : (E.map Prod.fst).all (fun t => !(C.A.unified C.L t) || overB (fun f => !special f) t) = true)
    (hc : (E.map Prod.fst).all (fun t => !((mgu C.mfuel (.app f as) t).any Option.isNone) || !(C.A.unified C.L t) ||
      (match t with | .app f' _ => (!special f') && decide (f' ≠ f) | _ => false)) = true)
    (hsub : C.sub = fun _ => some Z.sub) :
    ∃ S, UnifOK C (M m) S (fun t => ∃ st, Elem C fl roots t st) (.app f as) := by
  have hmem : ∀ t, (∃ st, Elem C fl roots t st) → t ∈ E.map Prod.fst := by
    rintro t ⟨st, h⟩
    exact List.mem_map.2 ⟨_, elem_of_closed hE h, rfl⟩
  have hb : ∀ f : Z, (!special f) = true → special f = false := fun f h => by simpa using h
  rw [List.all_eq_true] at ht hc
  refine ⟨fun f => special f = false, inj m, over_of_b hb _ hf, ?_, ?_, ?_⟩
  · intro t h1 h2
    refine over_of_b hb _ ?_
    simpa [h2] using ht t (hmem t h1)
  · intro t h1 h2 h3 τ
    refine complete_of ?_ hc (hmem t h1) h2 h3 τ
    simp only [overB, Bool.and_eq_true] at hf
    exact hb f hf.1
  · intro s f' e d
    rw [hsub] at e
    cases e
    exact rfl

theorem clash_of {m : Mode} {C : SearchCfg Z} {fl : Flags} {roots : List (Fm Z × List Var)} {E : List (Fm Z × UState Z)}
    (hE : closedB C fl roots E = true) (hL : C.L = lang (kind m))
    (h : E.all (fun p => p.2.bound.all (fun v => decide (v.id ≠ 1 ∧ v.id ≠ 2 ∧ v.id ≠ 3))) = true) :
    NoClash C fl roots ((K m).decOuter cand) := by
  refine ⟨?_, ?_⟩
  · intro t st he v hv
    rw [List.all_eq_true] at h
    have := h _ (elem_of_closed hE he)
    rw [List.all_eq_true] at this
    have := of_decide_eq_true (this v hv)
    rw [outer_iff]
    tauto
  · intro f args st _ hk
    rw [hL] at hk
    cases f <;> simp [kind] at hk

theorem candOK (m : Mode) : DecOK X (K m) (M m) (fun s => s = .index) cand where
  noQuant t h := nq t (by
    have : ∀ t ∈ cand.terms, overB (fun _ => true) t = true := by decide +kernel
    exact this t h)
  noExec := noExec _ _
  sort := rfl
  vars := by decide +kernel
  keyClash := clash_of (keyClosed m) rfl (by cases m <;> decide +kernel)
  keyUnif := unif_of (keyClosed m) (by decide +kernel) (by cases m <;> decide +kernel)
    (by cases m <;> decide +kernel) rfl
  mainClash := clash_of (mainClosed m) rfl (by cases m <;> decide +kernel)
  mainUnif := unif_of (mainClosed m) (by cases m <;> decide +kernel) (by cases m <;> decide +kernel)
    (by cases m <;> decide +kernel) rfl

/-! ### The randomness is well used in the good protocol -/

/-- Where occurrences are. -/
theorem occurs_in {kind : Z → Kind Z} {steps : List (GStep Z)} {m : Mode} {part : Fm Z → Fm Z → Prop} {next : Fm Z → List (Fm Z)} {T : List (Fm Z)}
    (hk : ∀ f, (∀ b fr cs, kind f ≠ .taq b fr cs) ∧ ∀ c, kind f ≠ .cell c) (hp : ∀ t a, part t a → a ∈ next t)
    (hT : T.all (fun t => (next t).all (fun a => decide (a ∈ T))) = true) (hs : ∀ s ∈ steps, s.message ∈ T ∧ s.condition ∈ T)
    {x y : Clo Z (Tm Z)} (h : Occurs (lang kind) steps (M m) part (fun _ => True) x y) (hx : x.1 ∈ T) : y.1 ∈ T := by
  induction h with
  | refl => exact hx
  | tail _ h ih =>
    rcases h with (h | h) | ⟨r, t, _, hc, h⟩
    · cases h with
      | part h =>
        rw [List.all_eq_true] at hT
        have := hT _ ih
        rw [List.all_eq_true] at this
        exact of_decide_eq_true (this _ (hp _ _ h))
      | taq h => exact absurd h ((hk _).1 _ _ _)
    · cases h with
      | msg _ h => exact (hs _ h).1
      | cond _ h => exact (hs _ h).2
    · cases h with
      | inputMsg h => exact (hs _ h).1
      | inputCond h => exact (hs _ h).2
      | exec h => exact (hs _ h).2
      | cell h =>
        cases hc with
        | cell h' => exact absurd h' ((hk _).2 _)

theorem kinds (m : Mode) (f : Z) : (∀ b fr cs, kind m f ≠ .taq b fr cs) ∧ ∀ c, kind m f ≠ .cell c := by
  cases f <;> simp [kind]

/-- The parts of a term, and those where randomness is not used as such. -/
def args : Fm Z → List (Fm Z)
  | .app _ l => l
  | _ => []

theorem args_of (t a : Fm Z) (h : ArgOf t a) : a ∈ args t := by cases h with | mk h => exact h

theorem rand_of (t a : Fm Z) (h : RandPart .enc .cast t a) : a ∈ (Aux.ctxtRand Z.enc .cast).nexts t := by
  cases h with
  | other h1 h2 => simp only [Aux.ctxtRand, h1, false_and, if_false]; exact h2
  | message h =>
    have h' := List.mem_of_getElem? h
    simp only [Aux.ctxtRand]
    split
    · rename_i args _
      refine List.mem_append_left _ ?_
      cases args with
      | nil => cases h
      | cons a l => simp at h; simp [h]
    · exact h'
  | key h =>
    have h' := List.mem_of_getElem? h
    simp only [Aux.ctxtRand]
    split
    · refine List.mem_append_right _ ?_
      rename_i args _ 
      match args, h with
      | a :: b :: c :: l, h => simp at h; simp [h]
    · exact h'
  | rand hr hg h =>
    simp only [Aux.ctxtRand, hr, Option.any_some, isApp]
    rw [if_neg (by simp [hg])]
    exact h

def all : List (Fm Z) := (allTerms 100 (inp ⟨1, .index⟩)).getD [] ++ ((steps .good).flatMap fun s => (allTerms 100 s.message).getD [] ++ (allTerms 100 s.condition).getD [])

def open' : List (Fm Z) := all.filter (fun t => decide (t ≠ .app .r [] ∧ t ≠ .app .r2 [] ∧ t ≠ .app .cast [.app .r []] ∧ t ≠ .app .cast [.app .r2 []]))

theorem steps_all : ∀ s ∈ steps .good, s.message ∈ all ∧ s.condition ∈ all := by decide +kernel
theorem steps_open : ∀ s ∈ steps .good, s.message ∈ open' ∧ s.condition ∈ open' := by decide +kernel

theorem start_in {T : List (Fm Z)} {ρ : Valn (Tm Z)} (h0 : inp ⟨1, .index⟩ ∈ T) (hs : ∀ s ∈ steps .good, s.message ∈ T ∧ s.condition ∈ T) {x : Clo Z (Tm Z)}
    (h : x ∈ [(cand.cipher, ρ)] ∨ IsContent (steps .good) [] (M .good) x) : x.1 ∈ T := by
  rcases h with h | h
  · rw [List.mem_singleton] at h; subst h; exact h0
  · cases h with
    | message h => exact (hs _ h).1
    | condition h => exact (hs _ h).2
    | assign h => cases h

theorem occ_all {ρ : Valn (Tm Z)} {x y : Clo Z (Tm Z)} (hx : x ∈ [(cand.cipher, ρ)] ∨ IsContent (steps .good) [] (M .good) x)
    (h : Occurs (lang (kind .good)) (steps .good) (M .good) ArgOf (fun _ => True) x y) : y.1 ∈ all :=
  occurs_in (kinds .good) args_of (by decide +kernel) steps_all h (start_in (by decide +kernel) steps_all hx)

/-- The encryptions of the good protocol. -/
def encsGood : List (Fm Z × Fm Z × Fm Z) := [(.app .p [], .app .r [], kF), (.app .q [], .app .r2 [], kF)]

theorem encs_good : ∀ t ∈ all, (match t with
    | .app .enc [m, .app .cast [r], k] => decide ((m, r, k) ∈ encsGood)
    | .app .enc _ => false
    | _ => true) = true := by decide +kernel

theorem randOK (ρ : Valn (Tm Z)) : RandOK (lang (kind .good)) (steps .good) [] (M .good) .enc .cast [(cand.cipher, ρ)] (.node .k []) where
  name x hx m r k κ ho _ := by
    have := encs_good _ (occ_all hx ho)
    split at this
    · rename_i h; cases h; exact ⟨_, rfl⟩
    · cases this
    · rename_i h; exact absurd rfl (h _)
  once x y hx hy m r k κ m' r' k' κ' h1 _ h2 he := by
    have h1 := encs_good _ (occ_all hx h1)
    have h2 := encs_good _ (occ_all hy h2)
    simp only [decide_eq_true_eq, encsGood, List.mem_cons, Prod.mk.injEq, List.not_mem_nil, or_false] at h1 h2
    rcases h1 with ⟨rfl, rfl, rfl⟩ | ⟨rfl, rfl, rfl⟩ <;> rcases h2 with ⟨rfl, rfl, rfl⟩ | ⟨rfl, rfl, rfl⟩
    · exact ⟨rfl, rfl⟩
    · have he : Tm.node Z.r [] = .node .r2 [] := he
      simp at he
    · have he : Tm.node Z.r2 [] = .node .r [] := he
      simp at he
    · exact ⟨rfl, rfl⟩
  only x hx m r k κ h1 _ := by
    have h1 := encs_good _ (occ_all hx h1)
    simp only [decide_eq_true_eq, encsGood, List.mem_cons, Prod.mk.injEq, List.not_mem_nil, or_false] at h1
    intro y hy f as κ' hf ho he
    have h2 : Fm.app f as ∈ open' := occurs_in (kinds .good) rand_of (by decide +kernel) steps_open ho (start_in (by decide +kernel) steps_open hy)
    have h3 : ∀ t ∈ open', (match t with | .app f _ => decide (out f = .name → f = .k) | _ => true) = true := by decide +kernel
    have h3 := of_decide_eq_true (h3 _ h2) (by simpa using hf)
    subst h3
    have he : Tm.node Z.k _ = _ := he
    rcases h1 with ⟨rfl, rfl, rfl⟩ | ⟨rfl, rfl, rfl⟩
    · have he : Tm.node Z.k _ = .node .r [] := he
      simp at he
    · have he : Tm.node Z.k _ = .node .r2 [] := he
      simp at he

/-! ### Cases of the theorems -/

/-- Case for C64: the protocol, the structure and the candidate meet the hypotheses, and an axiom is generated. -/
theorem case_good : ∃ φ, X.preprocess (K .good) = some [φ] ∧ ∀ ρ, (M .good).truth (Fm.eval (M .good) ρ φ) := by
  obtain ⟨φ, h⟩ : ∃ φ, X.preprocess (K .good) = some [φ] := ⟨_, rfl⟩
  obtain ⟨⟨es, side⟩, hes⟩ : ∃ p, X.encs (K .good) = some p := ⟨_, rfl⟩
  exact ⟨φ, h, fun ρ => C64_instance_partial (setting .good) (X := X) (by decide) rfl rfl rfl (gr := fun s => s = .index) (integrity .good)
    (cands .good) (List.forall_mem_singleton.2 (candOK .good)) hes
    (fun _ => List.forall_mem_singleton.2 fun _ _ ρ _ _ => randOK ρ) h ρ φ (List.mem_singleton_self _)⟩

/-- Case for C64: the decryption of the step is a candidate. -/
example : DecCopyIn (K .good).tops (inp x0) (.app .k []) [cand] :=
  C64_found (cands .good) (top := stepS.condition) (by decide +kernel) (by decide +kernel)

/-- The input at `s(1)` is accepted in every mode. -/
theorem accepts_first (m : Mode) : X.accepts (K m) (M m) first theKey := by
  show Tm.node Z.evm [val m (.node .dec [first, theKey])] ≠ .node .evm [val m (.node .fail [])]
  have h1 : val m (.node .dec [first, theKey]) = .node .p [] := by
    unfold first
    rw [val]
    · exact if_pos ⟨rfl, rfl⟩
    · simp
  have h2 : val m (.node .fail []) = .node .fail [] := by rw [val] <;> simp
  rw [h1, h2]
  simp

/-- Case for C64: the ciphertext received at `s(1)` decrypts, and it is an encryption found in the protocol. -/
example : ∃ d r, (K .good).E.val (M .good) .message first = (K .good).E.val (M .good) .message (.node .enc [d, .node .cast [r], theKey]) ∧
    ∃ res, Dep.search (mainC .good) 100 (X.target (K .good) cand) .all [(cand.cipher, [])] = some res ∧
      ∃ vs χ, some (vs, χ) ∈ res ∧ quantVal (M .good) .ex vs (fun κ => (M .good).truth (Fm.eval (M .good) κ χ))
        ((Valn.set (fun _ => .atom 1) ((K .good).decId cand) d).set ((K .good).decId cand + 1) r) := by
  obtain ⟨φ, h, hax⟩ := case_good
  obtain ⟨es, hes⟩ : ∃ es, X.encs (K .good) = some (es, true) := ⟨_, rfl⟩
  obtain ⟨d, r, _, _, h1, h2⟩ := C64_says_partial (setting .good) (X := X) rfl rfl rfl (cands .good) (List.mem_singleton_self cand) (candOK .good) hes h
    (ρ := fun _ => .atom 1) (List.forall_mem_singleton.2 (hax _)) (by decide +kernel) (τ := fun _ => .atom 1) (fun _ _ => rfl)
    (fun _ _ _ => ⟨1, rfl⟩) (by
      intro sc hsc
      have : sc = .app .and [] := by
        have h : (X.encs (K .good)).bind (fun p => (K .good).otherSc p.1 (.app .cast [cand.key]) ((K .good).decId cand + 2)) = some (.app .and []) := by
          decide +kernel
        rw [hes, Option.bind_some] at h
        exact Option.some.inj (hsc.symm.trans h)
      subst this
      exact fun _ h => nomatch h) (accepts_first .good)
  exact ⟨d, r, h1, h2⟩

/-- Case for C64: decryption is correct. -/
example : ∃ φ, X.baseAx (K .good) = some φ ∧ ∀ ρ, (M .good).truth (Fm.eval (M .good) ρ φ) := by
  obtain ⟨φ, h⟩ : ∃ φ, X.baseAx (K .good) = some φ := ⟨_, rfl⟩
  refine ⟨φ, h, fun ρ => (C64_correct (logical _ _).sem rfl h ρ).2 ?_⟩
  intro m c k _ _ _
  show Tm.node Z.evm [val .good m] = .node .evm [val .good (.node .dec [.node .enc [m, c, k], k])]
  rw [val, if_pos rfl]

/-! ### Side conditions that are too weak -/

/-- **C64 does not hold when randomness is used twice.** Ciphertexts are integral and the candidate meets all
hypotheses. But the encryptions `enc(p, r, k)` and `enc(q, r, k)` have the same randomness; the side condition
does not see it, as `p` and `q` do not unify. The axiom generated is false. -/
theorem C64_reuse_counterexample : ∃ (K : Pbl Z) (M : Str Z (Tm Z)) (X : Ctx Z) (c : DecCand Z) (φ : Fm Z),
    Setting K M ∧ X.enc ≠ X.dec ∧ (∀ f ∈ [X.enc, X.dec, X.fail], K.E.L.out f = some .message) ∧
    Integrity K.E.L K.steps K.cells M (fun s => s = .index) X.enc X.dec K.cast (X.accepts K M)
      (fun a b => K.E.val M .message a = K.E.val M .message b) ∧
    X.candidates K = some [c] ∧ DecOK X K M (fun s => s = .index) c ∧
    (∃ s ∈ K.steps, ∃ s' ∈ K.steps, ∃ m m' r k, m ≠ m' ∧ s.message = .app X.enc [m, .app K.cast [r], k] ∧
      s'.message = .app X.enc [m', .app K.cast [r], k]) ∧
    X.preprocess K = some [φ] ∧ ∀ ρ, ¬ M.truth (Fm.eval M ρ φ) := by
  obtain ⟨φ, h⟩ : ∃ φ, X.preprocess (K .reuse) = some [φ] := ⟨_, rfl⟩
  refine ⟨K .reuse, M .reuse, X, cand, φ, setting _, by decide, by decide, integrity _, cands _, candOK _,
    ⟨stepS, by simp, stepT .reuse, by simp, .app .p [], .app .q [], .app .r [], kF, by decide, rfl, rfl⟩, h, fun ρ hφ => ?_⟩
  obtain ⟨es, hes⟩ : ∃ es, X.encs (K .reuse) = some (es, true) := ⟨_, rfl⟩
  obtain ⟨d, r, _, _, h1, _⟩ := C64_says_partial (setting .reuse) (X := X) rfl rfl rfl (cands .reuse) (List.mem_singleton_self cand) (candOK .reuse) hes h
    (ρ := ρ) (List.forall_mem_singleton.2 hφ) (by decide +kernel) (τ := fun i => if i = 1 then .atom 1 else ρ i) (fun i hi => if_neg (fun e => hi (by rw [e]; decide +kernel)))
    (List.forall_mem_singleton.2 fun _ => ⟨1, rfl⟩) (by
      intro sc hsc
      have : sc = .app .and [] := by
        have h : (X.encs (K .reuse)).bind (fun p => (K .reuse).otherSc p.1 (.app .cast [cand.key]) ((K .reuse).decId cand + 2)) = some (.app .and []) := by
          decide +kernel
        rw [hes, Option.bind_some] at h
        exact Option.some.inj (hsc.symm.trans h)
      subst this
      exact fun _ h => nomatch h) (accepts_first .reuse)
  have h1 : Tm.node Z.evm [val .reuse first] = .node .evm [val .reuse (.node .enc [d, .node .cast [r], theKey])] := h1
  have h2 : val .reuse first = .node .g [] := by unfold first; rw [val]; simp [first]
  rw [h2, val_enc] at h1
  simp at h1

/-- **C64 does not hold when randomness is sent.** As `C64_reuse_counterexample`, with a step that sends the randomness
of the encryption: it is not searched in the protocol. -/
theorem C64_leak_counterexample : ∃ (K : Pbl Z) (M : Str Z (Tm Z)) (X : Ctx Z) (c : DecCand Z) (φ : Fm Z),
    Setting K M ∧ X.enc ≠ X.dec ∧ (∀ f ∈ [X.enc, X.dec, X.fail], K.E.L.out f = some .message) ∧
    Integrity K.E.L K.steps K.cells M (fun s => s = .index) X.enc X.dec K.cast (X.accepts K M)
      (fun a b => K.E.val M .message a = K.E.val M .message b) ∧
    X.candidates K = some [c] ∧ DecOK X K M (fun s => s = .index) c ∧
    (∃ s ∈ K.steps, ∃ s' ∈ K.steps, ∃ m r k, s.message = .app X.enc [m, .app K.cast [r], k] ∧ s'.message = .app K.cast [r]) ∧
    X.preprocess K = some [φ] ∧ ∀ ρ, ¬ M.truth (Fm.eval M ρ φ) := by
  obtain ⟨φ, h⟩ : ∃ φ, X.preprocess (K .leak) = some [φ] := ⟨_, rfl⟩
  refine ⟨K .leak, M .leak, X, cand, φ, setting _, by decide, by decide, integrity _, cands _, candOK _,
    ⟨stepS, by simp, stepT .leak, by simp, .app .p [], .app .r [], kF, rfl, rfl⟩, h, fun ρ hφ => ?_⟩
  obtain ⟨es, hes⟩ : ∃ es, X.encs (K .leak) = some (es, true) := ⟨_, rfl⟩
  obtain ⟨d, r, _, _, h1, _⟩ := C64_says_partial (setting .leak) (X := X) rfl rfl rfl (cands .leak) (List.mem_singleton_self cand) (candOK .leak) hes h
    (ρ := ρ) (List.forall_mem_singleton.2 hφ) (by decide +kernel) (τ := fun i => if i = 1 then .atom 1 else ρ i) (fun i hi => if_neg (fun e => hi (by rw [e]; decide +kernel)))
    (List.forall_mem_singleton.2 fun _ => ⟨1, rfl⟩) (by
      intro sc hsc
      have : sc = .app .and [] := by
        have h : (X.encs (K .leak)).bind (fun p => (K .leak).otherSc p.1 (.app .cast [cand.key]) ((K .leak).decId cand + 2)) = some (.app .and []) := by
          decide +kernel
        rw [hes, Option.bind_some] at h
        exact Option.some.inj (hsc.symm.trans h)
      subst this
      exact fun _ h => nomatch h) (accepts_first .leak)
  have h1 : Tm.node Z.evm [val .leak first] = .node .evm [val .leak (.node .enc [d, .node .cast [r], theKey])] := h1
  have h2 : val .leak first = .node .g [] := by unfold first; rw [val]; simp [first]
  rw [h2, val_enc] at h1
  simp at h1

/-! ### Pairs of encryptions -/

/-- Case for C64: two encryptions are sent; and with a third one whose randomness is not a name there is no axiom. -/
example : (∃ es, X.encs (K .good) = some (es, true) ∧ (⟨.app .r [], .app .p [], kF⟩ : EncCand Z) ∈ es ∧ es.length = 2) ∧
    ∃ es, X.encs { K .good with tops := (K .good).tops ++ [.app .enc [.app .p [], .app .p [], kF]] } = some (es, false) := by
  refine ⟨?_, _, rfl⟩
  have h : X.encs (K .good) = some ([⟨.app .r2 [], .app .q [], kF⟩, ⟨.app .r [], .app .p [], kF⟩], true) := by decide +kernel
  exact ⟨_, h, (C64_encryptions_partial h).2 _ _ _ [.app .p [], .app .cast [.app .r []], kF] [] (by decide +kernel) rfl rfl rfl, rfl⟩

/-- Case for C64: two encryptions of `g(x0)` and `g(x1)`, with randomness `r(x0)` and `r(x1)`. -/
example : ∃ sc, (K .good).otherSc [⟨.app .r [.var x0], .app .g [.var x0], kF⟩, ⟨.app .r [.var ⟨1, .index⟩], .app .g [.var ⟨1, .index⟩], kF⟩] kF 5 = some sc ∧
    ∀ ρ, (M .good).truth (Fm.eval (M .good) ρ sc) → ∀ i j : Nat, i = j →
      Tm.node Z.g [.atom i] = .node .g [.atom j] := by
  refine ⟨_, rfl, fun ρ hsc i j hij => ?_⟩
  subst hij
  exact (C64_pairs_partial (K := K .good) (es := [⟨.app .r [.var x0], .app .g [.var x0], kF⟩, ⟨.app .r [.var ⟨1, .index⟩], .app .g [.var ⟨1, .index⟩], kF⟩]) (logical _ _) (inj .good) (n := 5) (kf := kF) (a := ⟨.app .r [.var x0], .app .g [.var x0], kF⟩)
    (b := ⟨.app .r [.var ⟨1, .index⟩], .app .g [.var ⟨1, .index⟩], kF⟩) rfl (i := 0) (j := 1) (by decide) rfl rfl
    ⟨_, _, _, rfl, rfl, rfl⟩ ⟨_, _, _, rfl, rfl, rfl⟩ ⟨_, _, _, rfl, rfl, rfl⟩ ⟨_, _, _, rfl, rfl, rfl⟩
    ⟨over_of_b (b := fun f => !special f) (fun f h => by simpa using h) _ (by decide +kernel),
      over_of_b (b := fun f => !special f) (fun f h => by simpa using h) _ (by decide +kernel),
      over_of_b (b := fun f => !special f) (fun f h => by simpa using h) _ (by decide +kernel),
      over_of_b (b := fun f => !special f) (fun f h => by simpa using h) _ (by decide +kernel)⟩
    (τ := fun v => if v = 0 ∨ v = 6 then .atom i else ρ v) hsc (by
      intro v hv
      refine if_neg ?_
      rintro (rfl | rfl)
      · exact hv x0 (by decide +kernel) rfl
      · exact hv ⟨6, .index⟩ (by decide +kernel) rfl) (by
      intro v hv
      have : ∀ v ∈ ([.app Z.r [.var x0], .app .g [.var x0], kF, .app .r [.var ⟨6, .index⟩], .app .g [.var ⟨6, .index⟩]] : List (Fm Z)).flatMap Fm.free,
        v.id = 0 ∨ v.id = 6 := by decide +kernel
      intro _
      exact ⟨i, if_pos (this v hv)⟩) rfl rfl).2

/-! ### An open formula -/

/-- Steps that encrypt under the keys `k(i)` and `k(j)`. -/
abbrev KO : Pbl Z :=
  let e (v : Var) : Fm Z := .app .enc [.app .p [], .app .cast [.app .r []], .app .cast [.app .k [.var v]]]
  { K .good with tops := [e x0, e ⟨1, .index⟩, .app .chk [.app .dec [.app .q [], .app .cast [.app .k [.var x0]]]]] }

/-- **The axiom generated may be open.** The variables of the key of the second encryption of a pair are not
quantified: those of its randomness are listed twice instead. -/
theorem C64_open_counterexample : ∃ (K : Pbl Z) (X : Ctx Z) (φ : Fm Z) (v : Var),
    (∀ t ∈ K.tops, NoQuant t) ∧ X.preprocess K = some [φ] ∧ v ∈ φ.free := by
  refine ⟨KO, X, _, ⟨6, .index⟩, ?_, rfl, ?_⟩
  · intro t ht
    have : ∀ t ∈ KO.tops, overB (fun _ => true) t = true := by decide +kernel
    exact nq t (this t ht)
  · decide +kernel

end IEx

/-! ### The axiom over all messages is not well sorted -/

section
open Dep SmtM Ev Fm
variable {F : Type} [DecidableEq F]

/-- SPECIFICATION. Functions are applied to arguments of their sorts, everywhere in the formula. -/
inductive WellSorted (L : Lang F) (ins : F → Option (List Srt)) : Fm F → Prop
  | var (v) : WellSorted L ins (.var v)
  | app {f args} (h : ∀ ss, ins f = some ss → args.map L.sortOf = ss.map some) (ha : ∀ a ∈ args, WellSorted L ins a) :
      WellSorted L ins (.app f args)
  | quant {q vs b} (h : WellSorted L ins b) : WellSorted L ins (.quant q vs b)

omit [DecidableEq F] in
theorem WellSorted.inv {L : Lang F} {ins : F → Option (List Srt)} {f : F} {args : List (Fm F)} (h : WellSorted L ins (.app f args)) :
    (∀ ss, ins f = some ss → args.map L.sortOf = ss.map some) ∧ ∀ a ∈ args, WellSorted L ins a := by
  cases h with
  | app h1 h2 => exact ⟨h1, h2⟩

omit [DecidableEq F] in
theorem WellSorted.body {L : Lang F} {ins : F → Option (List Srt)} {q : QKind} {vs : List Var} {b : Fm F} (h : WellSorted L ins (.quant q vs b)) :
    WellSorted L ins b := by
  cases h with
  | quant h => exact h

/-- **The axiom over all messages is not well sorted.** Whatever the problem: `dec` takes two messages, and it is
applied to a variable that stands for a name. -/
theorem C64_general_ill_sorted {K : Pbl F} {X : Ctx F} {ins : F → Option (List Srt)} (hdec : K.E.L.out X.dec = some .message)
    (hins : ins X.dec = some [.message, .message]) {φ : Fm F} (h : X.generalAx K = some φ) : ¬ WellSorted K.E.L ins φ := by
  unfold Ctx.generalAx at h
  simp only [] at h
  split at h
  swap
  · cases h
  rename_i ed ef ec ec2 f1 f2 f3 f4 hed hef hec hec2 h1 h2 h3 h4
  simp only [Option.some.injEq] at h
  subst h
  intro hw
  rw [mkForall] at hw
  have hw := hw.body.inv.2 _ (List.mem_cons_self ..)
  have hw := hw.inv.2 _ (List.mem_cons_self ..)
  have hw : WellSorted K.E.L ins ed := hw.inv.2 _ (List.mem_cons_self ..)
  have key : ¬ WellSorted K.E.L ins (.app X.dec [.var ⟨1, .message⟩, .var ⟨3, .name⟩]) := by
    intro h
    have := h.inv.1 _ hins
    simp [Lang.sortOf] at this
  unfold Ev.Cfg.eval at hed
  rw [sortOf_app hdec] at hed
  simp only [Option.map_some, Option.some.injEq] at hed
  split at hed
  · subst hed; exact key hw
  · subst hed; exact key (hw.inv.2 _ (List.mem_singleton_self _))

end

namespace IEx
open Dep SmtM Ev Fm

/-- The axiom is generated. -/
example : ∃ φ, X.generalAx (K .good) = some φ := ⟨_, rfl⟩

/-- Case for C64: what the axiom says in a structure where `sub` is the equality. It is true there: no ciphertext is
accepted with a name that is not cast. -/
example : ∃ φ, X.generalAx (K .good) = some φ ∧ ((M .good).truth (Fm.eval (M .good) (fun _ => .atom 0) φ) ↔
    ∀ c k, X.accepts (K .good) (M .good) c k → ∃ m r,
      (K .good).E.val (M .good) .message c = (K .good).E.val (M .good) .message (.node .enc [m, .node .cast [r], .node .cast [k]]) ∧
      (Tm.node .enc [m, .node .cast [r], .node .cast [k]] = c ∨ k = c ∨ r = c ∨ ∃ m2 k2 r2,
        Tm.node .enc [m2, r2, .node .cast [k]] = c ∧ ((∀ n, r2 ≠ Tm.node Z.cast [n]) ∨
          (r2 = .node .cast [r] ∧ (m2 ≠ m ∨ k2 ≠ Tm.node .cast [k]))))) := by
  obtain ⟨φ, h⟩ : ∃ φ, X.generalAx (K .good) = some φ := ⟨_, rfl⟩
  refine ⟨φ, h, ?_⟩
  rw [C64_general_says (X := X) (ms := .sub) (ks := .sub) (rs := .sub) (logical .good _) (fun a b => by
      show (∃ d ∈ [a, b], Tm.truth d) ↔ _
      simp only [List.mem_cons, List.not_mem_nil, or_false, exists_eq_or_imp, exists_eq_left]
      rfl) rfl rfl rfl rfl rfl rfl rfl rfl rfl h]
  have hd : ∀ s d, s ≠ .index → (M .good).dom s d := fun s d h e => absurd e h
  simp only [hd, ne_eq, reduceCtorEq, not_false_eq_true, true_and, forall_const, fn_con (m := .good) (f := .enc) rfl, fn_con (m := .good) (f := .cast) rfl]
  rfl

end IEx
end Cry
end CV
