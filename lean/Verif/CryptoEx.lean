import Verif.CryptoProps
import Verif.SearchEx
set_option linter.unusedSimpArgs false
set_option linter.unnecessarySeqFocus false
/-
A structure with an unforgeable MAC; problems that meet the hypotheses of C61 and C62, and a problem for which a
false axiom is generated. C27: what the axiom over all messages says, and that it is false.
-/
namespace CV
namespace Cry
namespace CEx
open Dep SmtM Ev Fm

/-- The symbols. -/
inductive Z
  | eq | and | or | imp | tru | lt | not | ite | sub | key | evm | evc
  | s | input | mac | verify | k | cast | p | g | eqTa | bits | split
  deriving DecidableEq

def out : Z → Srt
  | .eq | .and | .or | .imp | .tru | .lt | .not | .sub | .evc | .key | .split => .bool
  | .s => .step
  | .verify | .eqTa => .condition
  | .k => .name
  | .evm | .bits => .bitstring
  | _ => .message

abbrev lang (kind : Z → Kind Z) : Lang Z where
  eq := .eq
  and := .and
  or := .or
  imp := .imp
  tru := .tru
  lt := .lt
  kind := kind
  out f := some (out f)
  infer _ _ := none

/-- The key of the example. -/
def theKey : Tm Z := .node .cast [.node .k []]

/-- Evaluation: `g(k)` evaluates as `mac(p, k)`, for the key `k`; so does the input at `s(1)`. -/
def val : Tm Z → Tm Z
  | .node .input [.node .s [.atom 1]] => .node .mac [.node .p [], theKey]
  | .node .g [.node .cast [.node .k []]] => .node .mac [.node .p [], theKey]
  | t => t

def ord (a b : Tm Z) : Prop := ∃ i j : Nat, a = .node .s [.atom i] ∧ b = .node .s [.atom j] ∧ i < j

open Classical in
/-- The structure: `verify(s, m, k)` when `s` evaluates as `mac(m, k)` and `k` is the key, or its public key
`bits(k)`; the other symbols build values. -/
noncomputable def fn : Z → List (Tm Z) → Tm Z
  | .eq, l => binary Eq l
  | .and, l => .prop (∀ d ∈ l, d.truth)
  | .or, l => .prop (∃ d ∈ l, d.truth)
  | .imp, [a, b] => .prop (a.truth → b.truth)
  | .tru, _ => .prop True
  | .lt, l => binary ord l
  | .not, [a] => .prop (¬ a.truth)
  | .ite, [c, a, b] => if c.truth then a else b
  | .sub, l => binary Eq l
  | .evm, [a] => val a
  | .evc, [a] => a
  | .verify, [s, m, k] => .prop (k = theKey ∧ val s = .node .mac [m, theKey] ∨
      k = .node .bits [theKey] ∧ val s = .node .mac [m, theKey])
  | f, l => .node f l

noncomputable def M : Str Z (Tm Z) where
  fn := fn
  truth := Tm.truth
  ofProp := .prop
  truth_ofProp _ := Iff.rfl
  dom s d := s = .index → ∃ n, d = .atom n

/-- The parameters of evaluation. -/
abbrev E (kind : Z → Kind Z) (symb : Bool) : Ev.Cfg Z where
  L := lang kind
  not := .not
  ite := .ite
  evs := if symb then [(.message, .evm), (.condition, .evc)] else []
  evalSort s := if s = .message then some .bitstring else if s = .condition then some .bool else none
  kind _ := .other
  functions := []
  sorts := [.message, .condition]
  symbolic := symb
  noBitstring := false
  legacy := false
  rewriteFn _ := .p
  skolem _ _ := .p

theorem logical (kind : Z → Kind Z) (b : Bool) : Logical (E kind b) M := by
  refine ⟨⟨?_, ?_, ?_, ?_⟩, ?_, ?_, ?_, ?_⟩
  · intro a b; exact Iff.rfl
  · intro l; exact Iff.rfl
  · intro l; exact Iff.rfl
  · exact trivial
  · intro a b; exact Iff.rfl
  · intro a; exact Iff.rfl
  · intro c a b h; exact if_pos h
  · intro c a b h; exact if_neg h

/-! ### The MAC is unforgeable -/

/-- The symbols that are not constructors. -/
def special : Z → Bool
  | .eq | .and | .or | .imp | .tru | .lt | .not | .ite | .sub | .evm | .evc | .verify => true
  | _ => false

theorem fn_con {f : Z} (h : special f = false) (l : List (Tm Z)) : M.fn f l = .node f l := by
  cases f <;> first | rfl | (simp [special] at h)

/-- Going through conditionals and evaluation. -/
inductive Down : Fm Z → Fm Z → Prop
  | ite {args a} (h : a ∈ args) : Down (.app .ite args) a
  | evm {args a} (h : a ∈ args) : Down (.app .evm args) a
  | evc {args a} (h : a ∈ args) : Down (.app .evc args) a

theorem val_node {d : Tm Z} {f : Z} {l : List (Tm Z)} (h : val d = .node f l) :
    d = .node f l ∨ (d = .node .g [theKey] ∨ d = .node .input [.node .s [.atom 1]]) ∧ f = .mac ∧ l = [.node .p [], theKey] := by
  unfold val at h
  split at h
  · simp only [Tm.node.injEq] at h
    exact .inr ⟨.inr rfl, h.1.symm, h.2.symm⟩
  · simp only [Tm.node.injEq] at h
    exact .inr ⟨.inl rfl, h.1.symm, h.2.symm⟩
  · exact .inl h

/-- The terms that evaluate as the MAC of `p`. -/
def Odd (ρ : Valn (Tm Z)) (t : Fm Z) : Prop :=
  (∃ args, t = .app .g args ∧ evals M ρ args = [theKey]) ∨ ∃ args, t = .app .input args ∧ evals M ρ args = [.node .s [.atom 1]]

/-- Where a value built by a constructor comes from. -/
theorem shape (ρ : Valn (Tm Z)) (t : Fm Z) : NoQuant t → (∀ v ∈ t.vars, ∃ n, ρ v.id = .atom n) →
    ∀ f l, special f = false → Fm.eval M ρ t = .node f l → ∃ t', Relation.ReflTransGen Down t t' ∧
      ((∃ args, t' = .app f args ∧ evals M ρ args = l) ∨
        f = .mac ∧ l = [.node .p [], theKey] ∧ Odd ρ t') := by
  induction t using Fm.ind with
  | hvar v =>
    intro _ hv f l _ h
    obtain ⟨n, hn⟩ := hv v (by simp [Fm.vars])
    simp only [Fm.eval, hn] at h
    cases h
  | hquant q vs b _ => intro hn; cases hn
  | happ h args ih =>
    intro hn hv f l hf he
    have sub : ∀ a ∈ args, ∀ f l, special f = false → Fm.eval M ρ a = .node f l → ∃ t', Relation.ReflTransGen Down a t' ∧
      ((∃ args, t' = .app f args ∧ evals M ρ args = l) ∨
        f = .mac ∧ l = [.node .p [], theKey] ∧ Odd ρ t') :=
      fun a ha => ih a ha (hn.arg ha) (fun v hv' => hv v (vars_arg ha hv'))
    have go : ∀ a ∈ args, Down (.app h args) a → Fm.eval M ρ a = .node f l → ∃ t', Relation.ReflTransGen Down (.app h args) t' ∧
      ((∃ args, t' = .app f args ∧ evals M ρ args = l) ∨
        f = .mac ∧ l = [.node .p [], theKey] ∧ Odd ρ t') := by
      intro a ha hd hea
      obtain ⟨t', h1, h2⟩ := sub a ha f l hf hea
      exact ⟨t', h1.head hd, h2⟩
    by_cases hs : special h = false
    · simp only [Fm.eval] at he
      rw [fn_con hs] at he
      simp only [Tm.node.injEq] at he
      obtain ⟨rfl, rfl⟩ := he
      exact ⟨_, .refl, .inl ⟨args, rfl, rfl⟩⟩
    · simp only [Fm.eval, evals_eq] at he
      change fn h (args.map (Fm.eval M ρ)) = _ at he
      cases h <;> simp only [special, not_true_eq_false, Bool.true_eq_false, not_false_eq_true] at hs
      · -- eq
        simp only [fn, binary] at he; split at he <;> cases he
      · cases he
      · cases he
      · -- imp
        match args, he with
        | [], he => simp only [fn, List.map, Tm.node.injEq] at he; obtain ⟨rfl, _⟩ := he; cases hf
        | [_], he => simp only [fn, List.map, Tm.node.injEq] at he; obtain ⟨rfl, _⟩ := he; cases hf
        | [_, _], he => cases he
        | _ :: _ :: _ :: _, he => simp only [fn, List.map, Tm.node.injEq] at he; obtain ⟨rfl, _⟩ := he; cases hf
      · cases he
      · simp only [fn, binary] at he; split at he <;> cases he
      · -- not
        match args, he with
        | [], he => simp only [fn, List.map, Tm.node.injEq] at he; obtain ⟨rfl, _⟩ := he; cases hf
        | [_], he => cases he
        | _ :: _ :: _, he => simp only [fn, List.map, Tm.node.injEq] at he; obtain ⟨rfl, _⟩ := he; cases hf
      · -- ite
        match args, he, go with
        | [], he, _ => simp only [fn, List.map, Tm.node.injEq] at he; obtain ⟨rfl, _⟩ := he; cases hf
        | [_], he, _ => simp only [fn, List.map, Tm.node.injEq] at he; obtain ⟨rfl, _⟩ := he; cases hf
        | [_, _], he, _ => simp only [fn, List.map, Tm.node.injEq] at he; obtain ⟨rfl, _⟩ := he; cases hf
        | [c, a, b], he, go =>
          simp only [fn, List.map] at he
          split at he
          · exact go a (by simp) (.ite (by simp)) he
          · exact go b (by simp) (.ite (by simp)) he
        | _ :: _ :: _ :: _ :: _, he, _ => simp only [fn, List.map, Tm.node.injEq] at he; obtain ⟨rfl, _⟩ := he; cases hf
      · simp only [fn, binary] at he; split at he <;> cases he
      · -- evm
        match args, he, go, sub with
        | [], he, _, _ => simp only [fn, List.map, Tm.node.injEq] at he; obtain ⟨rfl, _⟩ := he; cases hf
        | [a], he, go, sub =>
          simp only [fn, List.map] at he
          rcases val_node he with he | ⟨he2 | he2, rfl, rfl⟩
          · exact go a (by simp) (.evm (by simp)) he
          · obtain ⟨t', h1, h2⟩ := sub a (by simp) .g [theKey] rfl he2
            refine ⟨t', h1.head (.evm (by simp)), ?_⟩
            rcases h2 with ⟨as, rfl, h2⟩ | ⟨h2, _⟩
            · exact .inr ⟨rfl, rfl, .inl ⟨as, rfl, h2⟩⟩
            · cases h2
          · obtain ⟨t', h1, h2⟩ := sub a (by simp) .input [.node .s [.atom 1]] rfl he2
            refine ⟨t', h1.head (.evm (by simp)), ?_⟩
            rcases h2 with ⟨as, rfl, h2⟩ | ⟨h2, _⟩
            · exact .inr ⟨rfl, rfl, .inr ⟨as, rfl, h2⟩⟩
            · cases h2
        | _ :: _ :: _, he, _, _ => simp only [fn, List.map, Tm.node.injEq] at he; obtain ⟨rfl, _⟩ := he; cases hf
      · -- evc
        match args, he, go with
        | [], he, _ => simp only [fn, List.map, Tm.node.injEq] at he; obtain ⟨rfl, _⟩ := he; cases hf
        | [a], he, go => exact go a (by simp) (.evc (by simp)) he
        | _ :: _ :: _, he, _ => simp only [fn, List.map, Tm.node.injEq] at he; obtain ⟨rfl, _⟩ := he; cases hf
      · -- verify
        match args, he with
        | [], he => simp only [fn, List.map, Tm.node.injEq] at he; obtain ⟨rfl, _⟩ := he; cases hf
        | [_], he => simp only [fn, List.map, Tm.node.injEq] at he; obtain ⟨rfl, _⟩ := he; cases hf
        | [_, _], he => simp only [fn, List.map, Tm.node.injEq] at he; obtain ⟨rfl, _⟩ := he; cases hf
        | [_, _, _], he => cases he
        | _ :: _ :: _ :: _ :: _, he => simp only [fn, List.map, Tm.node.injEq] at he; obtain ⟨rfl, _⟩ := he; cases hf

theorem down_part {part : Fm Z → Fm Z → Prop} (hp : ∀ f args a, f = .ite ∨ f = .evm ∨ f = .evc → a ∈ args → part (.app f args) a)
    {kind : Z → Kind Z} {steps : List (GStep Z)} {X : MacroRef Z → Prop} {t t' : Fm Z} (ρ : Valn (Tm Z))
    (h : Relation.ReflTransGen Down t t') : Occurs (lang kind) steps M part X (t, ρ) (t', ρ) := by
  induction h with
  | refl => exact .refl
  | tail _ h ih =>
    refine ih.tail (.inl (.inl (.part ?_)))
    cases h with
    | ite h => exact hp _ _ _ (.inl rfl) h
    | evm h => exact hp _ _ _ (.inr (.inl rfl)) h
    | evc h => exact hp _ _ _ (.inr (.inr rfl)) h

theorem down_vars {t t' : Fm Z} (h : Relation.ReflTransGen Down t t') :
    (NoQuant t → NoQuant t') ∧ ∀ v ∈ t'.vars, v ∈ t.vars := by
  induction h with
  | refl => exact ⟨id, fun _ h => h⟩
  | tail _ h ih =>
    cases h with
    | ite h => exact ⟨fun hn => (ih.1 hn).arg h, fun v hv => ih.2 v (vars_arg h hv)⟩
    | evm h => exact ⟨fun hn => (ih.1 hn).arg h, fun v hv => ih.2 v (vars_arg h hv)⟩
    | evc h => exact ⟨fun hn => (ih.1 hn).arg h, fun v hv => ih.2 v (vars_arg h hv)⟩

/-- A secret key is not below `g`. -/
theorem no_g {kind : Z → Kind Z} {steps : List (GStep Z)} {cells : List (GCell Z)} {keyPart : Fm Z → Fm Z → Prop}
    (part : ∀ f args a, f = Z.ite ∨ f = .evm ∨ f = .evc ∨ f = .g ∨ f = .cast → a ∈ args → keyPart (.app f args) a)
    {ρ : Valn (Tm Z)} {s : Fm Z} {starts : List (Clo Z (Tm Z))}
    (hs : (s, ρ) ∈ starts) (hsec : Secret (lang kind) steps cells M keyPart starts (.node .k []))
    (hn : NoQuant s) (hv : ∀ v ∈ s.vars, ∃ n, ρ v.id = .atom n) {args : List (Fm Z)}
    (hd : Relation.ReflTransGen Down s (.app .g args)) (he : evals M ρ args = [theKey]) : False := by
  have part' : ∀ f args a, f = Z.ite ∨ f = .evm ∨ f = .evc → a ∈ args → keyPart (.app f args) a :=
    fun f args a hf ha => part f args a (by tauto) ha
  match args, he, hd with
  | [], he, _ => cases he
  | _ :: _ :: _, he, _ => simp [evals] at he
  | [a], he, hd =>
    simp only [evals, List.cons.injEq, and_true] at he
    obtain ⟨d1, d2⟩ := down_vars hd
    have hna := (d1 hn).arg (List.mem_singleton_self a)
    have hva : ∀ v ∈ a.vars, ∃ n, ρ v.id = .atom n := fun v h => hv v (d2 v (vars_arg (List.mem_singleton_self a) h))
    obtain ⟨t1, h1, h2⟩ := shape ρ a hna hva .cast [.node .k []] rfl he
    rcases h2 with ⟨bs, rfl, h2⟩ | ⟨h2, _⟩
    swap
    · cases h2
    match bs, h2, h1 with
    | [], h2, _ => cases h2
    | _ :: _ :: _, h2, _ => simp [evals] at h2
    | [b], h2, h1 =>
      simp only [evals, List.cons.injEq, and_true] at h2
      obtain ⟨d3, d4⟩ := down_vars h1
      have hnb := (d3 hna).arg (List.mem_singleton_self b)
      have hvb : ∀ v ∈ b.vars, ∃ n, ρ v.id = .atom n := fun v h => hva v (d4 v (vars_arg (List.mem_singleton_self b) h))
      obtain ⟨t2, h3, h4⟩ := shape ρ b hnb hvb .k [] rfl h2
      rcases h4 with ⟨cs, rfl, h4⟩ | ⟨h4, _⟩
      swap
      · cases h4
      refine hsec (s, ρ) (.inl hs) .k cs ρ rfl ?_ ?_
      · refine (down_part part' ρ hd).trans (.head (.inl (.inl (.part (part _ _ a (by simp) (by simp))))) ?_)
        exact (down_part part' ρ h1).trans (.head (.inl (.inl (.part (part _ _ b (by simp) (by simp))))) (down_part part' ρ h3))
      · simp only [Fm.eval, h4]
        exact fn_con rfl _

/-! ### Problems -/

/-- The three ways of verifying. -/
inductive Mode | mac | hmac | sign
  deriving DecidableEq

def x0 : Var := ⟨0, .index⟩
def kF : Fm Z := .app .cast [.app .k []]
def inp (v : Var) : Fm Z := .app .input [.app .s [.var v]]

/-- The check made by the step. -/
def check (m : Mode) : Fm Z := match m with
  | .mac => .app .verify [inp x0, .app .p [], kF]
  | .hmac => .app .eqTa [inp x0, .app .mac [.app .p [], kF]]
  | .sign => .app .verify [inp x0, .app .p [], .app .bits [kF]]

/-- A step that sends the MAC, or the signature, of `p` and checks its input. -/
def step (m : Mode) : GStep Z := ⟨.s, [x0], check m, .app .mac [.app .p [], kF]⟩

def kind (m : Mode) : Z → Kind Z
  | .s => .step (step m)
  | .input => .mac .input
  | _ => .plain

def graph : PreGraph Z := ⟨⟨true, []⟩, ⟨true, []⟩, []⟩

theorem built (m : Mode) : Built (kind m) [step m] [] graph := by
  cases m <;> exact ⟨100, 100, _, rfl, rfl⟩

abbrev K (m : Mode) (symb : Bool) : Pbl Z where
  E := E (kind m) symb
  cast := .cast
  eqTa := .eqTa
  toBits := .evm
  steps := [step m]
  cells := []
  G := graph
  tops := [check m, .app .mac [.app .p [], kF]]
  fuel := 100
  mfuel := 10

abbrev U (m : Mode) : Uf Z := ⟨.mac, .verify, decide (m = .hmac), true, fun _ => some .sub, true, fun _ => some .sub⟩
abbrev W : Euf Z := ⟨.mac, .verify, .bits, true, fun _ => some .sub, true, fun _ => some .sub⟩

def mainS (m : Mode) (b : Bool) : Sub Z := if m = .sign then W.main else (U m).main (K m b)
def keyS (m : Mode) (b : Bool) : Sub Z := if m = .sign then W.key (K m b) else (U m).key (K m b)

/-- The candidate found: the check with another variable. -/
def cand : Cand Z := ⟨.app .p [], inp ⟨1, .index⟩, .app .k []⟩

theorem cands (m : Mode) (b : Bool) : (m ≠ .sign → (U m).candidates (K m b) = some [cand]) ∧
    (m = .sign → W.candidates (K m b) = some [cand]) := by
  cases m <;> cases b <;> decide +kernel

theorem nq (t : Fm Z) (h : overB (fun _ => true) t = true) : NoQuant t :=
  (over_of_b (S := fun _ => True) (fun _ _ => trivial) t h).noQuant

theorem prot (m : Mode) : ProtOK (lang (kind m)) [step m] [] := by
  refine ⟨?_, ?_, ?_, ?_, ?_, ?_, ?_⟩
  · intro s hs
    simp only [List.mem_singleton] at hs; subst hs
    exact ⟨nq _ (by cases m <;> decide +kernel), by cases m <;> decide +kernel⟩
  · intro s hs
    simp only [List.mem_singleton] at hs; subst hs
    exact ⟨nq _ (by cases m <;> decide +kernel), by cases m <;> decide +kernel⟩
  · intro s hs
    simp only [List.mem_singleton] at hs; subst hs
    cases m <;> decide
  · intro c hc; cases hc
  · intro c hc; cases hc
  · intro f c h
    cases f <;> simp [kind] at h
  · intro f b fr cs h
    cases f <;> simp [kind] at h

theorem clean_app {m : Mode} {f : Z} (h : kind m f = .plain) (args : List (Fm Z)) (ha : ∀ a ∈ args, Clean (kind m) [] a) :
    Clean (kind m) [] (.app f args) := .other (.inl h) ha

theorem clean_k (m : Mode) : Clean (kind m) [] kF :=
  clean_app rfl _ (List.forall_mem_singleton.2 (clean_app rfl _ (fun _ h => nomatch h)))

theorem clean_mac (m : Mode) : Clean (kind m) [] (.app .mac [.app .p [], kF]) :=
  clean_app rfl _ (List.forall_mem_cons.2 ⟨clean_app rfl _ (fun _ h => nomatch h), List.forall_mem_singleton.2 (clean_k m)⟩)

theorem clean_inp (m : Mode) : Clean (kind m) [] (inp x0) := Dep.Clean.input (g := Z.s) rfl rfl

theorem good (m : Mode) : GoodProt (kind m) [step m] [] := by
  refine ⟨by simp, ?_, fun _ h => nomatch h⟩
  intro s hs
  simp only [List.mem_singleton] at hs; subst hs
  refine ⟨?_, clean_mac m⟩
  cases m
  · exact clean_app rfl _ (List.forall_mem_cons.2 ⟨clean_inp _, List.forall_mem_cons.2 ⟨clean_app rfl _ (fun _ h => nomatch h),
      List.forall_mem_singleton.2 (clean_k _)⟩⟩)
  · exact clean_app rfl _ (List.forall_mem_cons.2 ⟨clean_inp _, List.forall_mem_singleton.2 (clean_mac _)⟩)
  · exact clean_app rfl _ (List.forall_mem_cons.2 ⟨clean_inp _, List.forall_mem_cons.2 ⟨clean_app rfl _ (fun _ h => nomatch h),
      List.forall_mem_singleton.2 (clean_app rfl _ (List.forall_mem_singleton.2 (clean_k _)))⟩⟩)

theorem own_app {m : Mode} {f : Z} (h : f ≠ .input) (args : List (Fm Z)) (ha : ∀ a ∈ args, Own (lang (kind m)) (some (step m)) a) :
    Own (lang (kind m)) (some (step m)) (.app f args) := by
  refine .app ?_ ?_ ?_ nofun ?_ ha
  · cases f <;> simp [kind]
  · cases f <;> simp [kind]
  · cases f <;> simp [kind]
  · intro s _ hk
    cases f <;> simp [kind] at hk h

theorem own_k (m : Mode) : Own (lang (kind m)) (some (step m)) kF :=
  own_app (by decide) _ (List.forall_mem_singleton.2 (own_app (by decide) _ (fun _ h => nomatch h)))

theorem own_mac (m : Mode) : Own (lang (kind m)) (some (step m)) (.app .mac [.app .p [], kF]) :=
  own_app (by decide) _ (List.forall_mem_cons.2 ⟨own_app (by decide) _ (fun _ h => nomatch h), List.forall_mem_singleton.2 (own_k m)⟩)

theorem own_inp (m : Mode) : Own (lang (kind m)) (some (step m)) (inp x0) := by
  refine .app nofun nofun nofun nofun ?_ (List.forall_mem_singleton.2 (own_app (by decide) _ (List.forall_mem_singleton.2 .var)))
  intro s e _; cases e; rfl

theorem own (m : Mode) : OwnProt (lang (kind m)) [step m] [] := by
  refine ⟨?_, ?_, fun _ h => nomatch h⟩
  · intro s hs
    simp only [List.mem_singleton] at hs; subst hs
    exact own_mac m
  · intro s hs
    simp only [List.mem_singleton] at hs; subst hs
    cases m
    · exact own_app (by decide) _ (List.forall_mem_cons.2 ⟨own_inp _, List.forall_mem_cons.2 ⟨own_app (by decide) _ (fun _ h => nomatch h),
        List.forall_mem_singleton.2 (own_k _)⟩⟩)
    · exact own_app (by decide) _ (List.forall_mem_cons.2 ⟨own_inp _, List.forall_mem_singleton.2 (own_mac _)⟩)
    · exact own_app (by decide) _ (List.forall_mem_cons.2 ⟨own_inp _, List.forall_mem_cons.2 ⟨own_app (by decide) _ (fun _ h => nomatch h),
        List.forall_mem_singleton.2 (own_app (by decide) _ (List.forall_mem_singleton.2 (own_k _)))⟩⟩)

theorem noExec (m : Mode) (t : Fm Z) : NoExec (lang (kind m)) t := by
  intro f _
  cases f <;> simp [kind]

theorem ord_trans (a b c : Tm Z) : ord a b → ord b c → ord a c := by
  rintro ⟨i, j, rfl, rfl, h⟩ ⟨j', l, e, rfl, h'⟩
  simp only [Tm.node.injEq, List.cons.injEq, Tm.atom.injEq, and_true, true_and] at e
  exact ⟨i, l, rfl, rfl, by omega⟩

theorem setting (m : Mode) (b : Bool) : Setting (K m b) M where
  logical := logical _ _
  dom _ := ⟨.atom 0, fun _ => ⟨0, rfl⟩⟩
  trans := ord_trans
  prot := prot m
  good := good m
  own := own m
  visible _ h := nomatch h
  inputs := .inl fun _ h => nomatch h
  graph := built m
  stepExec _ _ := ⟨noExec _ _, noExec _ _⟩
  cellExec _ h := nomatch h
  taqExec f _ _ _ h := by cases f <;> simp [kind] at h
  evaluated h d := by simp only at h; subst h; rfl

/-- The MAC of the structure is unforgeable, with indices for variables. -/
theorem unforgeable (m : Mode) {keyPart mainPart : Fm Z → Fm Z → Prop}
    (hk : ∀ f args a, f = Z.ite ∨ f = .evm ∨ f = .evc ∨ f = .g ∨ f = .cast → a ∈ args → keyPart (.app f args) a)
    (hm : ∀ f args a, f = Z.ite ∨ f = .evm ∨ f = .evc → a ∈ args → mainPart (.app f args) a)
    {acc : Tm Z → Tm Z → Tm Z → Prop} (hacc : ∀ s m k, acc s m (.node .cast [k]) → val s = .node .mac [m, .node .cast [k]])
    {same : Tm Z → Tm Z → Prop} (hsame : ∀ d, same d d) :
    Unforgeable (lang (kind m)) [step m] [] M keyPart mainPart (fun s => s = .index) .mac .cast acc same := by
  intro t s k ρ _ hs _ hv h1 hsec
  rw [fn_con rfl] at h1
  have h2 := hacc _ _ _ h1
  have hvs : ∀ v ∈ s.vars, ∃ n, ρ v.id = .atom n := by
    intro v hvv
    obtain ⟨h3, h4⟩ := hv v (by simp [hvv])
    exact h4 h3
  refine ⟨Fm.eval M ρ t, (fun h => nomatch h), hsame _, (s, ρ), by simp, ?_⟩
  have odd : ∀ t', [Fm.eval M ρ t, .node .cast [Fm.eval M ρ k]] = [.node .p [], theKey] →
      Relation.ReflTransGen Down s t' → Odd ρ t' → ∃ args κ,
        Occurs (lang (kind m)) [step m] M mainPart (fun _ => True) (s, ρ) (.app .mac args, κ) ∧
        Fm.eval M κ (.app .mac args) = M.fn .mac [Fm.eval M ρ t, M.fn .cast [Fm.eval M ρ k]] := by
    rintro t' h3 hd (⟨args, rfl, h⟩ | ⟨args, rfl, h⟩)
    · have hkv : Fm.eval M ρ k = .node .k [] := by
        simp only [theKey, List.cons.injEq, Tm.node.injEq, and_true, true_and] at h3
        exact h3.2
      rw [hkv] at hsec
      exact (no_g (starts := [(t, ρ), (s, ρ)]) hk (by simp) hsec hs hvs hd h).elim
    · match args, h, hd with
      | [], h, _ => cases h
      | _ :: _ :: _, h, _ => simp [evals] at h
      | [a], h, hd =>
        simp only [evals, List.cons.injEq, and_true] at h
        refine ⟨_, fun _ => Tm.atom 0, (down_part hm ρ hd).tail
          (.inr ⟨.input, .node .s [.atom 1], trivial, ?_, .inputMsg (s := step m) (σ := (fun _ => Tm.atom 0 : Valn (Tm Z))) (by simp) ?_ ?_⟩), ?_⟩
        · rw [← h]
          exact .input rfl rfl
        · exact fun _ _ _ => ⟨0, rfl⟩
        · exact ⟨0, 1, rfl, rfl, by omega⟩
        · rw [fn_con (f := .cast) rfl, fn_con (f := .mac) rfl, h3]
          rfl
  rcases val_node h2 with h2 | ⟨h2, _, h3⟩
  · obtain ⟨t', hd, h⟩ := shape ρ s hs hvs _ _ rfl h2
    rcases h with ⟨args, rfl, h⟩ | ⟨_, h3, h⟩
    · refine ⟨args, ρ, down_part hm ρ hd, ?_⟩
      simp only [Fm.eval, h]
      rw [fn_con (f := .cast) rfl, fn_con (f := .mac) rfl]
    · exact odd t' h3 hd h
  · rcases h2 with h2 | h2
    · obtain ⟨t', hd, h⟩ := shape ρ s hs hvs _ _ rfl h2
      rcases h with ⟨args, rfl, h⟩ | ⟨h, _⟩
      · exact odd _ h3 hd (.inl ⟨args, rfl, h⟩)
      · cases h
    · obtain ⟨t', hd, h⟩ := shape ρ s hs hvs _ _ rfl h2
      rcases h with ⟨args, rfl, h⟩ | ⟨h, _⟩
      · exact odd _ h3 hd (.inr ⟨args, rfl, h⟩)
      · cases h

/-! The searches of the candidate -/

def keyRoots (m : Mode) : List (Fm Z × List Var) := topLevel [step m] [] ++ cand.roots
def keyC (m : Mode) (b : Bool) : SearchCfg Z := (K m b).search (keyS m b) false
def mainC (m : Mode) (b : Bool) : SearchCfg Z := (K m b).search (mainS m b) true
def keyElems (m : Mode) (b : Bool) : List (Fm Z × UState Z) :=
  visitAll (keyC m b) 6 ((keyRoots m).map (fun p => (p.1, ⟨.noRecMacro, p.2, none⟩)))
def mainElems (m : Mode) (b : Bool) : List (Fm Z × UState Z) :=
  visitAll (mainC m b) 8 (cand.roots.map (fun p => (p.1, ⟨.all, p.2, none⟩)))

theorem keyClosed (m : Mode) (b : Bool) : closedB (keyC m b) .noRecMacro (keyRoots m) (keyElems m b) = true := by
  cases m <;> cases b <;> decide +kernel
theorem mainClosed (m : Mode) (b : Bool) : closedB (mainC m b) .all cand.roots (mainElems m b) = true := by
  cases m <;> cases b <;> decide +kernel

theorem outer_iff (m : Mode) (b : Bool) (i : Nat) : (K m b).outer cand i ↔ i = 1 ∨ i = 2 := by
  unfold Pbl.outer
  have h1 : (K m b).uId cand = 2 := by cases m <;> cases b <;> decide +kernel
  have h2 : (cand.terms.flatMap Fm.vars).map Var.id = [1] := by decide +kernel
  rw [h1, h2, List.mem_singleton]
  exact Or.comm

theorem inj : M.InjectiveOn (fun f => special f = false) := by
  intro f as bs hf _ h
  rw [fn_con hf, fn_con hf] at h
  simpa using h

theorem complete_of {C : SearchCfg Z} {f : Z} {as : List (Fm Z)} {l : List (Fm Z)} (hf : special f = false)
    (h : ∀ t ∈ l, (!((mgu C.mfuel (.app f as) t).any Option.isNone) || !(C.A.unified C.L t) ||
      (match t with | .app f' _ => (!special f') && decide (f' ≠ f) | _ => false)) = true) {t : Fm Z} (ht : t ∈ l)
    (hu : C.A.unified C.L t = true) (hm : mgu C.mfuel (.app f as) t = some none) (τ : Valn (Tm Z)) :
    Fm.eval M τ (.app f as) ≠ Fm.eval M τ t := by
  have := h t ht
  simp only [hm, Option.any_some, Option.isNone_none, hu, Bool.not_true, Bool.false_or] at this
  split at this
  · rename_i f' as'
    simp only [Bool.and_eq_true, Bool.not_eq_true', decide_eq_true_eq] at this
    simp only [Fm.eval]
    rw [fn_con hf, fn_con this.1]
    intro e
    injection e with e1 e2
    exact this.2 e1.symm
  · cases this

theorem unif_of {C : SearchCfg Z} {fl : Flags} {roots : List (Fm Z × List Var)} {E : List (Fm Z × UState Z)} {f : Z} {as : List (Fm Z)}
    (hE : closedB C fl roots E = true) (hf : overB (fun f => !special f) (.app f as) = true)
    (ht : (E.map Prod.fst).all (fun t => !(C.A.unified C.L t) || overB (fun f => !special f) t) = true)
    (hc : (E.map Prod.fst).all (fun t => !((mgu C.mfuel (.app f as) t).any Option.isNone) || !(C.A.unified C.L t) ||
      (match t with | .app f' _ => (!special f') && decide (f' ≠ f) | _ => false)) = true)
    (hsub : C.sub = fun _ => some Z.sub) :
    ∃ S, UnifOK C M S (fun t => ∃ st, Elem C fl roots t st) (.app f as) := by
  have hmem : ∀ t, (∃ st, Elem C fl roots t st) → t ∈ E.map Prod.fst := by
    rintro t ⟨st, h⟩
    exact List.mem_map.2 ⟨_, elem_of_closed hE h, rfl⟩
  have hb : ∀ f : Z, (!special f) = true → special f = false := fun f h => by simpa using h
  rw [List.all_eq_true] at ht hc
  refine ⟨fun f => special f = false, inj, over_of_b hb _ hf, ?_, ?_, ?_⟩
  · intro t h1 h2
    refine over_of_b hb _ ?_
    simpa [h2] using ht t (hmem t h1)
  · intro t h1 h2 h3 τ
    refine complete_of ?_ hc (hmem t h1) h2 h3 τ
    simp only [overB, Bool.and_eq_true] at hf
    exact hb f hf.1
  · intro s f' e d
    rw [hsub] at e
    cases e
    exact rfl

theorem clash_of {m : Mode} {b : Bool} {C : SearchCfg Z} {fl : Flags} {roots : List (Fm Z × List Var)} {E : List (Fm Z × UState Z)}
    (hE : closedB C fl roots E = true) (hL : C.L = lang (kind m))
    (h : E.all (fun p => p.2.bound.all (fun v => decide (v.id ≠ 1 ∧ v.id ≠ 2))) = true) :
    NoClash C fl roots ((K m b).outer cand) := by
  refine ⟨?_, ?_⟩
  · intro t st he v hv
    rw [List.all_eq_true] at h
    have := h _ (elem_of_closed hE he)
    rw [List.all_eq_true] at this
    have := this v hv
    rw [outer_iff]
    simp only [ne_eq, decide_not, Bool.decide_and, Bool.and_eq_true, Bool.not_eq_true', decide_eq_false_iff_not] at this
    tauto
  · intro f args st _ hk
    rw [hL] at hk
    cases f <;> simp [kind] at hk

theorem candOK (m : Mode) (b : Bool) : CandOK (K m b) M (mainS m b) (keyS m b) (fun s => s = .index) .mac cand where
  noQuant t h := nq t (by
    have : ∀ t ∈ cand.terms, overB (fun _ => true) t = true := by decide +kernel
    exact this t h)
  noExec := ⟨noExec _ _, noExec _ _⟩
  sort := rfl
  vars := by decide +kernel
  keyClash := clash_of (keyClosed m b) rfl (by cases m <;> cases b <;> decide +kernel)
  keyUnif := unif_of (keyClosed m b) (by decide +kernel) (by cases m <;> cases b <;> decide +kernel)
    (by cases m <;> cases b <;> decide +kernel) (by cases m <;> rfl)
  mainClash := clash_of (mainClosed m b) rfl (by cases m <;> cases b <;> decide +kernel)
  mainUnif := unif_of (mainClosed m b) (by cases m <;> cases b <;> decide +kernel) (by cases m <;> cases b <;> decide +kernel)
    (by cases m <;> cases b <;> decide +kernel) (by cases m <;> rfl)
  capture := by
    intro _ φ h x hx
    have : ∀ φ ∈ (K m b).mainFormula (mainS m b) (.app .mac [.var ((K m b).uVar cand), .app (K m b).cast [cand.key]]) cand,
        ∀ x ∈ φ.bound, x.id ≠ 1 ∧ x.id ≠ 2 := by cases m <;> cases b <;> decide +kernel
    rw [outer_iff]
    have := this φ h x hx
    tauto

theorem part_key (f : Z) (args : List (Fm Z)) (a : Fm Z) (h : f = Z.ite ∨ f = .evm ∨ f = .evc ∨ f = .g ∨ f = .cast) (ha : a ∈ args) :
    KeyPart Z.mac .verify .cast (.app f args) a := by
  refine .other ?_ ?_ ha <;> rintro rfl <;> simp at h

theorem part_sign (f : Z) (args : List (Fm Z)) (a : Fm Z) (h : f = Z.ite ∨ f = .evm ∨ f = .evc ∨ f = .g ∨ f = .cast) (ha : a ∈ args) :
    SignPart Z.mac .bits .cast (.app f args) a := by
  refine .other ?_ ?_ ha <;> rintro rfl <;> simp at h

theorem part_main (f : Z) (args : List (Fm Z)) (a : Fm Z) (h : f = Z.ite ∨ f = .evm ∨ f = .evc) (ha : a ∈ args) :
    MainPart Z.mac .verify (.app f args) a := by
  refine .other ?_ ha; rintro rfl; simp at h

theorem part_hmac (f : Z) (args : List (Fm Z)) (a : Fm Z) (h : f = Z.ite ∨ f = .evm ∨ f = .evc) (ha : a ∈ args) :
    HmacSeen Z.eq .eqTa .mac .verify (.app f args) a := by
  refine .main ?_ ?_ (part_main f args a h ha) <;> rintro rfl <;> simp at h

theorem acc_mac (b : Bool) (s m k : Tm Z) (h : (U .mac).accepts (K .mac b) M s m (.node .cast [k])) :
    val s = .node .mac [m, .node .cast [k]] := by
  have h : (Tm.node .cast [k] = theKey ∧ val s = .node .mac [m, theKey]) ∨
      Tm.node .cast [k] = .node .bits [theKey] ∧ val s = .node .mac [m, theKey] := by cases b <;> exact h
  rcases h with ⟨h1, h2⟩ | ⟨h1, _⟩
  · rw [h1]; exact h2
  · simp at h1

theorem acc_hmac (b : Bool) (s m k : Tm Z) (h : (U .hmac).accepts (K .hmac b) M s m (.node .cast [k])) :
    val s = .node .mac [m, .node .cast [k]] := by
  cases b
  · have h : s = .node .mac [m, .node .cast [k]] := h
    rw [h]; rfl
  · exact h

theorem acc_sign (b : Bool) (s m k : Tm Z) (h : W.accepts (K .sign b) M s m (.node .cast [k])) :
    val s = .node .mac [m, .node .cast [k]] := by
  have h : (Tm.node .bits [.node .cast [k]] = theKey ∧ val s = .node .mac [m, theKey]) ∨
      Tm.node .bits [.node .cast [k]] = .node .bits [theKey] ∧ val s = .node .mac [m, theKey] := by cases b <;> exact h
  rcases h with ⟨h1, _⟩ | ⟨h1, h2⟩
  · simp [theKey] at h1
  · simp only [Tm.node.injEq, List.cons.injEq, and_true, true_and] at h1
    rw [h1]; exact h2

/-- Case for C61 (MAC). -/
theorem case_mac (b : Bool) : ∃ φ, (U .mac).preprocess (K .mac b) = some [φ] ∧ ∀ ρ, M.truth (Fm.eval M ρ φ) := by
  obtain ⟨φ, h⟩ : ∃ φ, (U .mac).preprocess (K .mac b) = some [φ] := by cases b <;> exact ⟨_, rfl⟩
  refine ⟨φ, h, fun ρ => ?_⟩
  exact C61_mac_partial (setting .mac b) (U := U .mac) rfl (by decide) rfl rfl (gr := fun s => s = .index)
    (unforgeable _ part_key part_main (acc_mac b) (fun _ => rfl)) ((cands .mac b).1 (by decide))
    (List.forall_mem_singleton.2 (candOK .mac b)) h ρ φ (List.mem_singleton_self _)

/-- Case for C61 with `hmac`. -/
theorem case_hmac (b : Bool) : ∃ φ, (U .hmac).preprocess (K .hmac b) = some [φ] ∧ ∀ ρ, M.truth (Fm.eval M ρ φ) := by
  obtain ⟨φ, h⟩ : ∃ φ, (U .hmac).preprocess (K .hmac b) = some [φ] := by cases b <;> exact ⟨_, rfl⟩
  refine ⟨φ, h, fun ρ => ?_⟩
  exact C61_hmac_partial (setting .hmac b) (U := U .hmac) rfl (by decide) (by cases b <;> decide) (by cases b <;> decide) rfl rfl (gr := fun s => s = .index)
    (unforgeable _ part_key part_hmac (acc_hmac b) (fun _ => rfl)) ((cands .hmac b).1 (by decide))
    (List.forall_mem_singleton.2 (candOK .hmac b)) (List.forall_mem_singleton.2 rfl) h ρ φ (List.mem_singleton_self _)

/-- Case for C61 (signatures). -/
theorem case_sign (b : Bool) : ∃ φ, W.preprocess (K .sign b) = some [φ] ∧ ∀ ρ, M.truth (Fm.eval M ρ φ) := by
  obtain ⟨φ, h⟩ : ∃ φ, W.preprocess (K .sign b) = some [φ] := by cases b <;> exact ⟨_, rfl⟩
  refine ⟨φ, h, fun ρ => ?_⟩
  exact C61_signature_partial (setting .sign b) (U := W) (by decide) rfl rfl (gr := fun s => s = .index)
    (unforgeable _ part_sign (fun _ _ _ _ ha => .mk ha) (acc_sign b) (fun _ => rfl)) ((cands .sign b).2 rfl)
    (List.forall_mem_singleton.2 (candOK .sign b)) h ρ φ (List.mem_singleton_self _)

/-- Cases for C62: the checks of the steps are candidates. -/
example : CopyIn (K .mac true).tops (.app .p []) (inp x0) (.app .k []) [cand] :=
  (C62_mac_found ((cands .mac true).1 (by decide)) (List.mem_cons_self ..)).1 (by decide +kernel)
example : CopyIn (K .hmac true).tops (.app .p []) (inp x0) (.app .k []) [cand] :=
  ((C62_mac_found ((cands .hmac true).1 (by decide)) (List.mem_cons_self ..)).2.1 rfl _ (.inr rfl)).1 (by decide +kernel)
example : CopyIn (K .sign true).tops (.app .p []) (inp x0) (.app .k []) [cand] :=
  C62_signature_found ((cands .sign true).2 rfl) (List.mem_cons_self ..) (by decide +kernel)

/-- Case for C62: the MAC received at `s(1)` is accepted, and a MAC of `p` is found. -/
example : ∃ d, val d = .node .p [] ∧
    ∃ res, Dep.search ((K .mac true).search ((U .mac).main (K .mac true)) true) 100
        (.app .mac [.var ((K .mac true).uVar cand), .app .cast [cand.key]]) .all cand.roots = some res ∧
      ∃ vs χ, some (vs, χ) ∈ res ∧
        quantVal M .ex vs (fun κ => M.truth (Fm.eval M κ χ)) (Valn.set (fun _ => .atom 1) ((K .mac true).uId cand) d) := by
  obtain ⟨φ, h, hax⟩ := case_mac true
  obtain ⟨d, _, h1, h2⟩ := C62_mac_says_partial (setting .mac true) (U := U .mac) rfl rfl ((cands .mac true).1 (by decide))
    (List.mem_singleton_self cand) (candOK .mac true) rfl h (ρ := fun _ => .atom 1) (List.forall_mem_singleton.2 (hax _))
    (by decide +kernel) (τ := fun _ => .atom 1) (fun _ _ => rfl) rfl (fun _ _ _ => ⟨1, rfl⟩) (fun e => nomatch e) (.inl ⟨rfl, rfl⟩)
  exact ⟨d, h1, h2⟩

/-- Case for C62 (signatures). -/
example : ∃ d, val d = .node .p [] ∧
    ∃ res, Dep.search ((K .sign true).search W.main true) 100
        (.app .mac [.var ((K .sign true).uVar cand), .app .cast [cand.key]]) .all cand.roots = some res ∧
      ∃ vs χ, some (vs, χ) ∈ res ∧
        quantVal M .ex vs (fun κ => M.truth (Fm.eval M κ χ)) (Valn.set (fun _ => .atom 1) ((K .sign true).uId cand) d) := by
  obtain ⟨φ, h, hax⟩ := case_sign true
  obtain ⟨d, _, h1, h2⟩ := C62_signature_says_partial (setting .sign true) (U := W) rfl ((cands .sign true).2 rfl)
    (List.mem_singleton_self cand) (candOK .sign true) h (ρ := fun _ => .atom 1) (List.forall_mem_singleton.2 (hax _))
    (by decide +kernel) (τ := fun _ => .atom 1) (fun _ _ => rfl) rfl (fun _ _ _ => ⟨1, rfl⟩) (fun e => nomatch e) (.inr ⟨rfl, rfl⟩)
  exact ⟨d, h1, h2⟩

/-! ### A variable that stands for a message -/

def y : Var := ⟨5, .message⟩

/-- The same protocol; the problem speaks of a message that verifies. -/
abbrev KV : Pbl Z := { K .mac true with tops := [.quant .all [y] (.app .verify [.var y, .app .p [], kF])] }

/-- The axiom generated: for every message `y`, if `y` verifies as a MAC of `p` then a MAC is part of `y`. -/
def falseAx : Fm Z := .quant .all [⟨11, .message⟩] (.app .imp [
  .app .evc [.app .verify [.var ⟨11, .message⟩, .app .p [], kF]],
  .quant .ex [⟨12, .message⟩] (.app .and [
    .app .eq [.app .evm [.var ⟨12, .message⟩], .app .evm [.app .p []]],
    .app .or [.app .and [.app .sub [.app .mac [.var ⟨12, .message⟩, kF], .var ⟨11, .message⟩]]]])])

/-- **C61 does not hold for variables that stand for messages.** The MAC is unforgeable and the protocol meets the
hypotheses of `C61_mac_partial`, but the axiom generated for `∀ y : message. verify(y, p, k)` is false: the side
condition on the key does not consider that the key may occur in the values of `y`. -/
theorem C61_message_variable_counterexample : ∃ (K : Pbl Z) (M : Str Z (Tm Z)) (U : Uf Z) (φ : Fm Z),
    Setting K M ∧ U.hmac = false ∧
    Unforgeable K.E.L K.steps K.cells M (KeyPart U.mac U.verify K.cast) (MainPart U.mac U.verify) (fun s => s = .index) U.mac K.cast
      (U.accepts K M) (fun a b => K.E.val M .message a = K.E.val M .message b) ∧
    U.preprocess K = some [φ] ∧ ∀ ρ, ¬ M.truth (Fm.eval M ρ φ) := by
  refine ⟨KV, M, U .mac, falseAx, ⟨logical _ _, fun _ => ⟨.atom 0, fun _ => ⟨0, rfl⟩⟩, ord_trans, prot _, good _, own _, nofun,
    .inl nofun, built _, fun _ _ => ⟨noExec _ _, noExec _ _⟩, nofun, ?_, nofun⟩, rfl,
    unforgeable .mac part_key part_main (acc_mac true) (fun _ => rfl), rfl, ?_⟩
  · intro f _ _ _ h
    cases f <;> simp [kind] at h
  · intro ρ h
    obtain ⟨u, _, hu⟩ := h (.node .g [theKey]) nofun (.inl ⟨rfl, rfl⟩)
    obtain ⟨d, hd, ht⟩ := hu _ (List.mem_cons_of_mem _ (List.mem_singleton_self _))
    rw [evals, evals, List.mem_singleton] at hd
    subst hd
    have := ht _ (List.mem_singleton_self _)
    have this : Tm.node Z.mac [u, theKey] = .node .g [theKey] := this
    simp at this

/-! ### C27 -/

/-- Occurring in a value. -/
inductive In (x : Tm Z) : Tm Z → Prop
  | here : In x x
  | arg {f l a} (h : a ∈ l) (ha : In x a) : In x (.node f l)

/-- Occurring in a value otherwise than as the key of a MAC. -/
inductive InKey (x : Tm Z) : Tm Z → Prop
  | here : InKey x x
  | arg {f l a} (hf : f ≠ .mac) (h : a ∈ l) (ha : InKey x a) : InKey x (.node f l)
  | mac {l a} (h : a ∈ l.take 1) (ha : InKey x a) : InKey x (.node .mac l)

open Classical in
/-- The free structure: a MAC verifies when it is the MAC of the message. The signature is `verify(mac, message,
key)`, as the axiom of correctness has it. With `vk` the key is a public key, `bits(k)`. -/
noncomputable def fn2 (vk : Bool) : Z → List (Tm Z) → Tm Z
  | .eq, l => binary Eq l
  | .and, l => .prop (∀ d ∈ l, d.truth)
  | .or, l => .prop (∃ d ∈ l, d.truth)
  | .imp, [a, b] => .prop (a.truth → b.truth)
  | .tru, _ => .prop True
  | .lt, l => binary ord l
  | .not, [a] => .prop (¬ a.truth)
  | .ite, [c, a, b] => if c.truth then a else b
  | .sub, l => binary In l
  | .key, l => binary InKey l
  | .split, _ => .prop False
  | .evm, [a] => a
  | .evc, [a] => a
  | .verify, [s, m, k] => .prop (if vk then ∃ k', k = .node .bits [k'] ∧ s = .node .mac [m, k'] else s = .node .mac [m, k])
  | f, l => .node f l

noncomputable def M2 (vk : Bool) : Str Z (Tm Z) where
  fn := fn2 vk
  truth := Tm.truth
  ofProp := .prop
  truth_ofProp _ := Iff.rfl
  dom s d := s = .name → d = .node .k []

theorem logical2 (vk b : Bool) : Logical (E (kind .mac) b) (M2 vk) := by
  refine ⟨⟨?_, ?_, ?_, ?_⟩, ?_, ?_, ?_, ?_⟩
  · intro a b; exact Iff.rfl
  · intro l; exact Iff.rfl
  · intro l; exact Iff.rfl
  · exact trivial
  · intro a b; exact Iff.rfl
  · intro a; exact Iff.rfl
  · intro c a b h; exact if_pos h
  · intro c a b h; exact if_neg h

abbrev mainS2 : Sub Z := ⟨(mainS .mac true).A, true, fun _ => some .sub⟩
abbrev keyS2 : Sub Z := ⟨(keyS .mac true).A, true, fun _ => some .key⟩

/-- What the axiom should say, with the arguments of `verify` in the order of the axiom of correctness: when
`verify(s, m, key(k))` is accepted, the tag of a message that evaluates as `m` occurs, or the key does. -/
def Intended (K : Pbl Z) (M : Str Z (Tm Z)) (tag ver spl ms ks : Z) (dk : Tm Z → Tm Z) : Prop :=
  ∀ s m k, M.dom .message s → M.dom .message m → M.dom .name k →
    M.truth (K.E.val M .condition (M.fn ver [s, m, dk (M.fn K.cast [k])])) →
    ∃ u, M.dom .message u ∧ K.E.val M .message u = K.E.val M .message m ∧
      (M.truth (M.fn ms [M.fn tag [u, M.fn K.cast [k]], m]) ∨ M.truth (M.fn ms [M.fn tag [u, M.fn K.cast [k]], s]) ∨
        M.truth (M.fn ks [k, m]) ∨ M.truth (M.fn ks [k, s]) ∨ M.truth (M.fn spl [k]))

theorem not_in (x : Tm Z) (h : In (.node .mac [x, theKey]) (.node .mac [.node .p [], theKey])) :
    x = .node .p [] := by
  cases h with
  | here => rfl
  | arg h ha =>
    simp only [List.mem_cons, List.not_mem_nil, or_false] at h
    rcases h with rfl | rfl
    · cases ha with
      | arg h _ => cases h
    · cases ha with
      | arg h ha =>
        simp only [List.mem_singleton] at h
        subst h
        cases ha with
        | arg h _ => cases h

theorem not_in_p (x : Tm Z) (h : In x (.node .p [])) : x = .node .p [] := by
  cases h with
  | here => rfl
  | arg h _ => cases h

theorem not_key_p (x : Tm Z) (h : InKey x (.node .p [])) : x = .node .p [] := by
  cases h with
  | here => rfl
  | arg _ h _ => cases h

theorem general_false (vk : Bool) : ∃ φ, (K .mac true).generalAx mainS2 keyS2 .mac .verify .split (fun t => if vk then .app .bits [t] else t) = some φ ∧
    Intended (K .mac true) (M2 vk) .mac .verify .split .sub .key (fun d => if vk then (M2 vk).fn .bits [d] else d) ∧
    ∀ ρ, ¬ (M2 vk).truth (Fm.eval (M2 vk) ρ φ) := by
  have hg : ∃ φ, (K .mac true).generalAx mainS2 keyS2 .mac .verify .split (fun t => if vk then .app .bits [t] else t) = some φ := by
    cases vk <;> exact ⟨_, rfl⟩
  obtain ⟨φ, hφ⟩ := hg
  refine ⟨φ, hφ, ?_, ?_⟩
  · intro s m k _ _ _ h
    refine ⟨m, nofun, rfl, .inr (.inl ?_)⟩
    have h : s = .node .mac [m, .node .cast [k]] := by
      cases vk
      · exact h
      · obtain ⟨k', h1, h2⟩ := h
        cases h1; exact h2
    subst h
    exact In.here
  · intro ρ h
    rw [C27_general_says (logical2 vk true) (dk := fun d => if vk then (M2 vk).fn .bits [d] else d) (ms := .sub) (ks := .key) ?_ ?_ rfl rfl rfl rfl rfl hφ] at h
    · obtain ⟨u, _, h1, h2⟩ := h (.node .mac [.node .p [], theKey]) (.node .p []) (.node .k []) nofun nofun (fun _ => rfl)
        (by cases vk; exact rfl; exact ⟨theKey, rfl, rfl⟩)
      have h1 : u = .node .mac [.node .p [], theKey] := h1
      subst h1
      have h2 : In (.node .mac [.node .mac [.node .p [], theKey], theKey]) (.node .mac [.node .p [], theKey]) ∨
        In (.node .mac [.node .mac [.node .p [], theKey], theKey]) (.node .p []) ∨ InKey (.node .k []) (.node .mac [.node .p [], theKey]) ∨
        InKey (.node .k []) (.node .p []) ∨ False := h2
      rcases h2 with h2 | h2 | h2 | h2 | h2
      · cases not_in _ h2
      · cases not_in_p _ h2
      · cases h2 with
        | arg h _ _ => exact h rfl
        | mac h ha =>
          simp only [List.take, List.mem_singleton] at h
          subst h
          cases not_key_p _ ha
      · cases not_key_p _ h2
      · exact h2
    · intro a b
      show (∃ d ∈ [a, b], d.truth) ↔ _
      simp [M2]
    · intro t ρ
      cases vk <;> rfl

/-- **C27 does not hold.** In the free structure MACs verify (the axiom of correctness is true), and the intended
statement of unforgeability over all messages is true, but the axiom generated is false: it takes the first
argument of `verify` for the message, which is the MAC. -/
theorem C27_general_counterexample : ∃ (K : Pbl Z) (M : Str Z (Tm Z)) (U : Uf Z) (main key : Sub Z) (spl ms ks : Z)
    (base φ : Fm Z), Logical K.E M ∧ main.sym (some .message) = some ms ∧ key.sym (some .message) = some ks ∧
    U.baseAx K = some base ∧ (∀ ρ, M.truth (Fm.eval M ρ base)) ∧
    Intended K M U.mac U.verify spl ms ks (fun d => d) ∧
    K.generalAx main key U.mac U.verify spl (fun t => t) = some φ ∧ ∀ ρ, ¬ M.truth (Fm.eval M ρ φ) := by
  obtain ⟨φ, h1, h2, h3⟩ := general_false false
  obtain ⟨base, hb⟩ : ∃ base, (U .mac).baseAx (K .mac true) = some base := ⟨_, rfl⟩
  refine ⟨K .mac true, M2 false, U .mac, mainS2, keyS2, .split, .sub, .key, base, φ, logical2 _ _, rfl, rfl, hb, ?_, h2, h1, h3⟩
  intro ρ
  rw [C61_mac_correct rfl hb]
  intro m k _ _
  exact rfl

/-- **C27 does not hold for signatures either.** -/
theorem C27_signature_counterexample : ∃ (K : Pbl Z) (M : Str Z (Tm Z)) (U : Euf Z) (main key : Sub Z) (spl ms ks : Z)
    (φ : Fm Z), Logical K.E M ∧ main.sym (some .message) = some ms ∧ key.sym (some .message) = some ks ∧
    (∀ m k, M.truth (K.E.val M .condition (M.fn U.verify [M.fn U.sign [m, k], m, M.fn U.pk [k]]))) ∧
    Intended K M U.sign U.verify spl ms ks (fun d => M.fn U.pk [d]) ∧
    K.generalAx main key U.sign U.verify spl (fun t => .app U.pk [t]) = some φ ∧ ∀ ρ, ¬ M.truth (Fm.eval M ρ φ) := by
  obtain ⟨φ, h1, h2, h3⟩ := general_false true
  exact ⟨K .mac true, M2 true, W, mainS2, keyS2, .split, .sub, .key, φ, logical2 _ _, rfl, rfl, fun m k => ⟨k, rfl, rfl⟩, h2, h1, h3⟩

end CEx
end Cry
end CV
