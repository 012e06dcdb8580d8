import Verif.SubtermProps
import Verif.IntCtxtProps
import Verif.SearchEx
set_option linter.unusedSimpArgs false
set_option linter.unnecessarySeqFocus false
/-
A structure in which the subterm predicates are read as the occurrence of values; a problem that meets the
hypotheses of C46 and C63, and axioms that are false.
-/
namespace CV
namespace Cry
open Dep SmtM Ev Fm

/-! ### Occurrence does not depend on how the predicates themselves are read -/

section
variable {F D : Type} {L : Lang F} {steps : List (GStep F)} {M M' : Str F D} {S : F → Prop}

/-- Two structures that agree on what occurrence is about. -/
structure Agree (L : Lang F) (steps : List (GStep F)) (M M' : Str F D) (S : F → Prop) : Prop where
  dom : M.dom = M'.dom
  truth : M.truth = M'.truth
  fn : ∀ f, S f → M.fn f = M'.fn f
  lt : M.fn L.lt = M'.fn L.lt
  kind : ∀ f, L.kind f ≠ .plain → S f
  step : ∀ s ∈ steps, S s.fn ∧ Over S s.message ∧ Over S s.condition
  cell : ∀ f c, L.kind f = .cell c → ∀ a ∈ c.assigns, S a.step.fn ∧ Over S a.content
  taq : ∀ f b fr cs, L.kind f = .taq b fr cs → ∀ c ∈ cs, Over S c

theorem Agree.symm (h : Agree L steps M M' S) : Agree L steps M' M S :=
  ⟨h.dom.symm, h.truth.symm, fun f hf => (h.fn f hf).symm, h.lt.symm, h.kind, h.step, h.cell, h.taq⟩

theorem Agree.eval (h : Agree L steps M M' S) {t : Fm F} (ht : Over S t) (ρ : Valn D) : Fm.eval M ρ t = Fm.eval M' ρ t := by
  induction ht with
  | var v => rfl
  | app hf _ ih =>
    simp only [Fm.eval, evals_map]
    rw [h.fn _ hf, List.map_congr_left ih]

theorem Agree.time (h : Agree L steps M M' S) {s : GStep F} (hs : S s.fn) (σ : Valn D) : s.time M σ = s.time M' σ := by
  simp only [GStep.time, h.fn _ hs]

theorem Agree.ltEq (h : Agree L steps M M' S) : Lt L M = Lt L M' := by
  funext a b
  simp only [Lt, h.truth, h.lt]

theorem Agree.yields (h : Agree L steps M M' S) {r : MacroRef F} {T : D} {y : Clo F D}
    (hr : ∀ c, r = .cell c → ∀ a ∈ c.assigns, S a.step.fn ∧ Over S a.content) (hy : Yields L steps M r T y) :
    Yields L steps M' r T y ∧ Over S y.1 := by
  have hd : ∀ vs σ, InDom M vs σ → InDom M' vs σ := fun vs σ hh v hv => by rw [← h.dom]; exact hh v hv
  cases hy with
  | inputMsg hs hdm ht =>
    obtain ⟨h1, h2, h3⟩ := h.step _ hs
    rw [h.ltEq, h.time h1] at ht
    exact ⟨.inputMsg hs (hd _ _ hdm) ht, h2⟩
  | inputCond hs hdm ht =>
    obtain ⟨h1, h2, h3⟩ := h.step _ hs
    rw [h.ltEq, h.time h1] at ht
    exact ⟨.inputCond hs (hd _ _ hdm) ht, h3⟩
  | exec hs hdm ht =>
    obtain ⟨h1, h2, h3⟩ := h.step _ hs
    rw [Le, h.ltEq, h.time h1] at ht
    exact ⟨.exec hs (hd _ _ hdm) ht, h3⟩
  | cell ha hdm ht =>
    obtain ⟨h1, h2⟩ := hr _ rfl _ ha
    rw [Le, h.ltEq, h.time h1] at ht
    exact ⟨.cell ha (hd _ _ hdm) ht, h2⟩

theorem Agree.opens (h : Agree L steps M M' S) {f : F} {l : List D} {y : Clo F D} (ho : Opens L steps M f l y) :
    Opens L steps M' f l y ∧ Over S y.1 := by
  have hd : ∀ vs σ, InDom M vs σ → InDom M' vs σ := fun vs σ hh v hv => by rw [← h.dom]; exact hh v hv
  cases ho with
  | taq hk hc hf hb => exact ⟨.taq hk hc hf (hd _ _ hb), h.taq _ _ _ _ hk _ hc⟩
  | msg hk hs hdm =>
    obtain ⟨h1, h2, h3⟩ := h.step _ hs
    rw [h.time h1]
    exact ⟨.msg hk hs (hd _ _ hdm), h2⟩
  | cond hk hs hdm =>
    obtain ⟨h1, h2, h3⟩ := h.step _ hs
    rw [h.time h1]
    exact ⟨.cond hk hs (hd _ _ hdm), h3⟩
  | input hk hT hy =>
    have := h.yields (fun c e => by cases e) hy
    exact ⟨.input hk hT this.1, this.2⟩
  | exec hk hT hy =>
    have := h.yields (fun c e => by cases e) hy
    exact ⟨.exec hk hT this.1, this.2⟩
  | cell hk hT hy =>
    have := h.yields (fun c e => by cases e; exact h.cell _ _ hk) hy
    exact ⟨.cell hk hT this.1, this.2⟩

theorem Agree.contains (h : Agree L steps M M' S) {vp : F → List D → D → Prop} {follow : F → Prop}
    (hvp : ∀ f l a, vp f l a → S f) {n d : D} (hc : Contains L steps M vp follow n d) : Contains L steps M' vp follow n d := by
  induction hc with
  | here => exact .here
  | part hf _ ih => rw [h.fn _ (hvp _ _ _ hf)]; exact .part hf ih
  | opened hf ho _ ih =>
    rw [h.fn _ (h.kind _ ho.kind.1)]
    obtain ⟨h1, h2⟩ := h.opens ho
    exact .opened hf h1 (by rw [← h.eval h2]; exact ih)

end

namespace TEx

/-- The symbols. -/
inductive V
  | eq | and | or | imp | tru | lt | not | ite | sub | key | main | skey | ckey | crand | evm
  | s | msg | cond | input | exec | c | q | mac | verify | k | cast | p | g | ok | bits | eqTa
  deriving DecidableEq

def out : V → Srt
  | .eq | .and | .or | .imp | .tru | .lt | .not | .sub | .key | .main | .skey | .ckey | .crand => .bool
  | .s => .step
  | .verify | .eqTa | .cond | .exec | .q | .ok => .condition
  | .k => .name
  | .evm => .bitstring
  | _ => .message

abbrev lang (kind : V → Kind V) : Lang V where
  eq := .eq
  and := .and
  or := .or
  imp := .imp
  tru := .tru
  lt := .lt
  kind := kind
  out f := some (out f)
  infer _ _ := none

/-- The symbols read as logical ones, as predicates or as evaluation. -/
def special : V → Bool
  | .eq | .and | .or | .imp | .tru | .lt | .not | .ite | .sub | .key | .main | .skey | .ckey | .crand | .evm => true
  | _ => false

/-- The symbols of the term algebra. -/
def taB : V → Bool
  | .msg | .cond | .input | .exec | .c | .q | .mac | .verify | .cast | .p | .g | .ok | .bits | .eqTa => true
  | _ => false

def ta (f : V) : Prop := taB f = true
def S (f : V) : Prop := special f = false

/-! ### The structure -/

/-- Evaluation: `g(k)` evaluates as `k`. -/
def val : Tm V → Tm V
  | .node .g [.node .cast [n]] => .node .cast [n]
  | t => t

/-- The order of time points, by their first argument. -/
def ord (a b : Tm V) : Prop := ∃ (i j : Nat) (l l' : List (Tm V)), a = .node .s (.atom i :: l) ∧ b = .node .s (.atom j :: l') ∧ i < j

open Classical in
noncomputable def fn (R : V → Tm V → Tm V → Prop) : V → List (Tm V) → Tm V
  | .eq, l => binary Eq l
  | .and, l => .prop (∀ d ∈ l, d.truth)
  | .or, l => .prop (∃ d ∈ l, d.truth)
  | .imp, [a, b] => .prop (a.truth → b.truth)
  | .tru, _ => .prop True
  | .lt, l => binary ord l
  | .not, [a] => .prop (¬ a.truth)
  | .ite, [c, a, b] => if c.truth then a else b
  | .sub, l => binary (R .sub) l
  | .key, l => binary (R .key) l
  | .main, l => binary (R .main) l
  | .skey, l => binary (R .skey) l
  | .ckey, l => binary (R .ckey) l
  | .crand, l => binary (R .crand) l
  | .evm, [a] => val a
  | f, l => .node f l

/-- Indices are numbers, time points are built by `s`, the values of the sorts of the term algebra by the symbols of
these sorts. -/
def dom : Srt → Tm V → Prop
  | .index, d => ∃ n, d = .atom n
  | .step, d => ∃ l, d = .node .s l
  | .bool, _ => True
  | .bitstring, _ => True
  | .user _, _ => True
  | s, d => ∃ f l, S f ∧ out f = s ∧ d = .node f l

noncomputable def str (R : V → Tm V → Tm V → Prop) : Str V (Tm V) where
  fn := fn R
  truth := Tm.truth
  ofProp := .prop
  truth_ofProp _ := Iff.rfl
  dom := dom

theorem fn_con (R : V → Tm V → Tm V → Prop) {f : V} (h : S f) (l : List (Tm V)) : (str R).fn f l = .node f l := by
  cases f <;> first | rfl | (simp [S, special] at h)

/-! ### The problems -/

def x0 : Var := ⟨0, .index⟩
def x1 : Var := ⟨1, .index⟩
def kF (v : Var) : Fm V := .app .cast [.app .k [.var v]]
def inp (v : Var) : Fm V := .app .input [.app .s [.var v]]

/-- A step that checks a MAC and sends the MAC of its input; in the `bad` problem, a step with two parameters that
sends the content of the cell. -/
def stp (bad : Bool) : GStep V :=
  if bad then ⟨.s, [x0, x1], .app .ok [], .app .c [.app .s [.var x0, .var x1]]⟩
  else ⟨.s, [x0], .app .verify [inp x0, .app .p [], kF x0], .app .mac [inp x0, kF x0]⟩

/-- A cell that stores the input; in the `bad` problem, a name. -/
def cel (bad : Bool) : GCell V := ⟨0, [⟨stp bad, [], if bad then kF x0 else inp x0, []⟩]⟩

/-- The quantifier symbol: over indices, or with a parameter that stands for a message. -/
def kind (bad : Bool) : V → Kind V
  | .s => .step (stp bad)
  | .msg => .mac .msg
  | .cond => .mac .cond
  | .input => .mac .input
  | .exec => .mac .exec
  | .c => .cell (cel bad)
  | .q => if bad then .taq [] [⟨0, .message⟩] [.app .verify [.var ⟨0, .message⟩, .app .p [], .app .p []]]
    else .taq [x1] [x0] [.app .verify [.app .p [], .app .p [], kF x1]]
  | _ => .plain

def graph (bad : Bool) : PreGraph V := ⟨⟨true, []⟩, ⟨!bad, []⟩, [(cel bad, ⟨false, [cel bad]⟩)]⟩

theorem built (b : Bool) : Built (kind b) [stp b] [cel b] (graph b) := by
  cases b <;> exact ⟨100, 100, _, rfl, rfl⟩

def functions : List V := [.msg, .cond, .input, .exec, .c, .q, .mac, .verify, .cast, .p, .g, .ok, .bits]

abbrev E (bad : Bool) : Ev.Cfg V where
  L := lang (kind bad)
  not := .not
  ite := .ite
  evs := [(.message, .evm)]
  evalSort s := if s = .message then some .bitstring else none
  kind _ := .other
  functions := functions
  sorts := [.message, .condition, .index, .name, .step]
  symbolic := true
  noBitstring := false
  legacy := false
  rewriteFn _ := .p
  skolem _ _ := .p

abbrev K (bad : Bool) : Pbl V where
  E := E bad
  cast := .cast
  eqTa := .eqTa
  toBits := .evm
  steps := [stp bad]
  cells := [cel bad]
  G := graph bad
  tops := []
  fuel := 100
  mfuel := 10

def insort (bad : Bool) : V → Option (List Srt)
  | .msg | .cond | .input | .exec | .c => some [.step]
  | .q => some [if bad then .message else .index]
  | .mac => some [.message, .message]
  | .verify => some [.message, .message, .message]
  | .cast => some [.name]
  | .g | .bits => some [.message]
  | .p | .ok => some []
  | _ => none

def info (bad : Bool) : Info V where
  dflt f := decide (f ∈ [V.mac, .verify, .cast, .p, .g, .ok, .bits])
  ta := taB
  insort := insort bad
  taSort s := s ≠ .index
  evaluated s := s = .bool || s = .bitstring
  ins := []

abbrev U : Uf V := ⟨.mac, .verify, false, true, fun _ => some .main, true, fun _ => some .key⟩
abbrev W : Euf V := ⟨.mac, .verify, .bits, true, fun _ => some .sub, true, fun _ => some .skey⟩
/-- `verify` as the encryption and `mac` as the decryption. -/
abbrev X : Ctx V := ⟨.verify, .mac, .p, true, fun _ => some .sub, true, fun _ => some .ckey, true, fun _ => some .crand⟩

/-! ### The reading of the predicates -/

noncomputable abbrev M0 : Str V (Tm V) := str fun _ _ _ => False

def rel (bad : Bool) : V → Tm V → Tm V → Prop
  | .sub => Contains (lang (kind bad)) [stp bad] M0 (Every ta) (fun _ => True)
  | .key => Contains (lang (kind bad)) [stp bad] M0 (KeyParts M0 .mac .verify .cast ta) (IsTaq (K bad))
  | .main => Contains (lang (kind bad)) [stp bad] M0 (MainParts M0 .mac .verify ta) (fun _ => True)
  | .skey => Contains (lang (kind bad)) [stp bad] M0 (SignParts M0 .mac .bits .cast ta) (IsTaq (K bad))
  | .ckey => Contains (lang (kind bad)) [stp bad] M0 (CtxtParts M0 .verify .mac .cast ta) (fun _ => True)
  | .crand => Contains (lang (kind bad)) [stp bad] M0 (RandParts M0 .verify .cast ta) (fun _ => True)
  | _ => fun _ _ => False

noncomputable abbrev M (bad : Bool) : Str V (Tm V) := str (rel bad)

theorem ta_S (f : V) (h : ta f) : S f := by cases f <;> simp_all [ta, taB, S, special]

theorem over (t : Fm V) (h : overB (fun f => !special f) t = true) : Over S t :=
  over_of_b (fun f h => by simpa [S] using h) t h

theorem kind_S (b : Bool) (f : V) (h : kind b f ≠ .plain) : S f := by
  cases f <;> first | rfl | exact absurd rfl h

theorem kind_taq {b : Bool} {f : V} {bd fr : List Var} {cs : List (Fm V)} (h : kind b f = .taq bd fr cs) : f = .q := by
  cases f <;> cases b <;> simp_all [kind]

theorem kind_cell {b : Bool} {f : V} {c : GCell V} (h : kind b f = .cell c) : c = cel b := by
  cases f <;> cases b <;> simp_all [kind]

theorem taq_over (b : Bool) {f : V} {bd fr : List Var} {cs : List (Fm V)} (h : kind b f = .taq bd fr cs) :
    (∀ c ∈ cs, Over S c) ∧ ∀ v ∈ bd, v.sort = .index := by
  obtain rfl := kind_taq h
  cases b
  · simp only [kind, Bool.false_eq_true, if_false, Kind.taq.injEq] at h
    obtain ⟨rfl, rfl, rfl⟩ := h
    exact ⟨List.forall_mem_singleton.2 (over _ (by decide +kernel)), List.forall_mem_singleton.2 rfl⟩
  · simp only [kind, if_true, Kind.taq.injEq] at h
    obtain ⟨rfl, rfl, rfl⟩ := h
    exact ⟨List.forall_mem_singleton.2 (over _ (by decide +kernel)), fun _ h => nomatch h⟩

theorem step_over (b : Bool) : Over S (stp b).message ∧ Over S (stp b).condition := by
  cases b <;> exact ⟨over _ (by decide +kernel), over _ (by decide +kernel)⟩

theorem content_over (b : Bool) : ∀ a ∈ (cel b).assigns, a.step = stp b ∧ a.fresh = [] ∧ Over S a.content := by
  cases b <;> exact List.forall_mem_singleton.2 ⟨rfl, rfl, over _ (by decide +kernel)⟩

theorem step_fn (b : Bool) : (stp b).fn = .s := by cases b <;> rfl

theorem agreeR (b : Bool) (R : V → Tm V → Tm V → Prop) : Agree (lang (kind b)) [stp b] (str R) M0 S where
  dom := rfl
  truth := rfl
  fn f hf := by funext l; rw [fn_con _ hf, fn_con _ hf]
  lt := rfl
  kind := kind_S b
  step := List.forall_mem_singleton.2 ⟨by rw [step_fn]; rfl, step_over b⟩
  cell f c h a ha := by
    obtain rfl := kind_cell h
    obtain ⟨h1, _, h2⟩ := content_over b a ha
    exact ⟨by rw [h1, step_fn]; rfl, h2⟩
  taq _ _ _ _ h := (taq_over b h).1

theorem agree (b : Bool) : Agree (lang (kind b)) [stp b] (M b) M0 S := agreeR b _

theorem contains_iff (b : Bool) {vp : V → List (Tm V) → Tm V → Prop} (hvp : ∀ f l a, vp f l a → ta f) {follow : V → Prop} {n d : Tm V} :
    Contains (lang (kind b)) [stp b] M0 vp follow n d ↔ Contains (lang (kind b)) [stp b] (M b) vp follow n d :=
  ⟨(agree b).symm.contains fun f l a h => ta_S f (hvp f l a h), (agree b).contains fun f l a h => ta_S f (hvp f l a h)⟩

theorem readsN (b : Bool) (s : Srt) : Reads (K b) (M b) (Every ta) (fun _ => True) ⟨Aux.default s, true, fun _ => some .sub⟩ := by
  refine ⟨rfl, fun o f e x d _ => ?_⟩
  cases e
  exact contains_iff b Every.is_ta

theorem readsK (b : Bool) : Reads (K b) (M b) (KeyParts (M b) .mac .verify .cast ta) (IsTaq (K b)) (U.key (K b)) := by
  refine ⟨rfl, fun o f e x d _ => ?_⟩
  cases e
  exact contains_iff b (fun _ _ _ h => h.1)

theorem readsM (b : Bool) : Reads (K b) (M b) (MainParts (M b) .mac .verify ta) (fun _ => True) (U.main (K b)) := by
  refine ⟨rfl, fun o f e x d _ => ?_⟩
  cases e
  exact contains_iff b (fun _ _ _ h => h.1)

theorem readsS (b : Bool) : Reads (K b) (M b) (SignParts (M b) .mac .bits .cast ta) (IsTaq (K b)) (W.key (K b)) := by
  refine ⟨rfl, fun o f e x d _ => ?_⟩
  cases e
  exact contains_iff b (fun _ _ _ h => h.1)

theorem readsCK (b : Bool) : Reads (K b) (M b) (CtxtParts (M b) .verify .mac .cast ta) (fun _ => True) (X.key (K b)) := by
  refine ⟨rfl, fun o f e x d _ => ?_⟩
  cases e
  exact contains_iff b (fun _ _ _ h => h.1)

theorem readsCR (b : Bool) : Reads (K b) (M b) (RandParts (M b) .verify .cast ta) (fun _ => True) (X.rand (K b)) := by
  refine ⟨rfl, fun o f e x d _ => ?_⟩
  cases e
  exact contains_iff b (fun _ _ _ h => h.1)

/-! ### The hypotheses -/

theorem logicalR (b : Bool) (R : V → Tm V → Tm V → Prop) : Logical (E b) (str R) := by
  refine ⟨⟨?_, ?_, ?_, ?_⟩, ?_, ?_, ?_, ?_⟩
  · intro a b; exact Iff.rfl
  · intro l; exact Iff.rfl
  · intro l; exact Iff.rfl
  · exact trivial
  · intro a b; exact Iff.rfl
  · intro a; exact Iff.rfl
  · intro c a b h; exact if_pos h
  · intro c a b h; exact if_neg h

theorem logical (b : Bool) : Logical (E b) (M b) := logicalR b _

def gr (s : Srt) : Prop := s = .index ∨ s = .step

theorem worldR (b : Bool) (R : V → Tm V → Tm V → Prop) {srt : Srt} (hs : srt = .name ∨ srt = .message) :
    World (K b) (str R) S ta srt gr where
  free f f' l l' hf hg h := by
    rw [fn_con _ hf, fn_con _ hg] at h
    simpa using h
  ta_S := ta_S
  built d hd := by
    have : ∃ f l, S f ∧ out f = srt ∧ d = .node f l := by rcases hs with rfl | rfl <;> exact hd
    obtain ⟨f, l, h1, h2, rfl⟩ := this
    exact ⟨f, l, h1, by rw [← h2], (fn_con _ h1 l).symm⟩
  atoms s d hg hd f l hf := by
    have hS : S f := by rcases hf with h | h; exacts [ta_S f h, h.1]
    have hne : f ≠ .s := by
      rintro rfl
      rcases hf with h | ⟨_, h⟩
      · cases h
      · rcases hs with rfl | rfl <;> cases h
    rw [fn_con _ hS]
    rintro rfl
    rcases hg with rfl | rfl
    · obtain ⟨n, h⟩ := hd; cases h
    · obtain ⟨l', h⟩ := hd; cases h; exact hne rfl
  opens f h1 h2 := by
    cases f <;> first | rfl | exact absurd rfl h1 | exact absurd rfl (h2 _)
  step := List.forall_mem_singleton.2 ⟨(step_over b).1, (step_over b).2, by
    cases b
    · exact List.forall_mem_singleton.2 (.inl rfl)
    · exact List.forall_mem_cons.2 ⟨.inl rfl, List.forall_mem_singleton.2 (.inl rfl)⟩⟩
  assign c hc a ha := by
    rw [List.mem_singleton] at hc; subst hc
    obtain ⟨h1, h2, h3⟩ := content_over b a ha
    refine ⟨h3, ?_⟩
    rw [h1, h2]
    cases b
    · exact List.forall_mem_singleton.2 (.inl rfl)
    · exact List.forall_mem_cons.2 ⟨.inl rfl, List.forall_mem_singleton.2 (.inl rfl)⟩
  taq f bd fr cs h := ⟨(taq_over b h).1, fun v hv => .inl ((taq_over b h).2 v hv)⟩

theorem world (b : Bool) {srt : Srt} (hs : srt = .name ∨ srt = .message) : World (K b) (M b) S ta srt gr := worldR b _ hs

theorem nq (t : Fm V) (h : overB (fun _ => true) t = true) : NoQuant t :=
  (over_of_b (S := fun _ => True) (fun _ _ => trivial) t h).noQuant

theorem prot (b : Bool) : ProtOK (lang (kind b)) [stp b] [cel b] := by
  refine ⟨?_, ?_, ?_, ?_, ?_, ?_, ?_⟩
  · exact List.forall_mem_singleton.2 ⟨nq _ (by cases b <;> decide +kernel), by cases b <;> decide +kernel⟩
  · exact List.forall_mem_singleton.2 ⟨nq _ (by cases b <;> decide +kernel), by cases b <;> decide +kernel⟩
  · exact List.forall_mem_singleton.2 (by cases b <;> decide)
  · refine List.forall_mem_singleton.2 (List.forall_mem_singleton.2 ⟨nq _ (by cases b <;> decide +kernel), by cases b <;> decide +kernel⟩)
  · refine List.forall_mem_singleton.2 (List.forall_mem_singleton.2 (by cases b <;> decide +kernel))
  · intro f c h; obtain rfl := kind_cell h; exact List.mem_singleton_self _
  · intro f bd fr cs h
    obtain rfl := kind_taq h
    cases b
    · simp only [kind, Bool.false_eq_true, if_false, Kind.taq.injEq] at h
      obtain ⟨rfl, rfl, rfl⟩ := h
      exact ⟨by decide, List.forall_mem_singleton.2 ⟨nq _ (by decide +kernel), by decide +kernel⟩⟩
    · simp only [kind, if_true, Kind.taq.injEq] at h
      obtain ⟨rfl, rfl, rfl⟩ := h
      exact ⟨by decide, List.forall_mem_singleton.2 ⟨nq _ (by decide +kernel), by decide +kernel⟩⟩

theorem clean_app {b : Bool} {f : V} (h : kind b f = .plain) (args : List (Fm V)) (ha : ∀ a ∈ args, Clean (kind b) [cel b] a) :
    Clean (kind b) [cel b] (.app f args) := .other (.inl h) ha

theorem clean_k (b : Bool) : Clean (kind b) [cel b] (kF x0) :=
  clean_app rfl _ (List.forall_mem_singleton.2 (clean_app rfl _ (List.forall_mem_singleton.2 (.var (by decide)))))

theorem clean_inp (b : Bool) : Clean (kind b) [cel b] (inp x0) := Dep.Clean.input (g := V.s) rfl rfl

theorem good (b : Bool) : GoodProt (kind b) [stp b] [cel b] := by
  refine ⟨by simp, List.forall_mem_singleton.2 ?_, List.forall_mem_singleton.2 (List.forall_mem_singleton.2 ?_)⟩
  · cases b
    · exact ⟨clean_app rfl _ (List.forall_mem_cons.2 ⟨clean_inp _, List.forall_mem_cons.2 ⟨clean_app rfl _ (fun _ h => nomatch h),
        List.forall_mem_singleton.2 (clean_k _)⟩⟩), clean_app rfl _ (List.forall_mem_cons.2 ⟨clean_inp _, List.forall_mem_singleton.2 (clean_k _)⟩)⟩
    · exact ⟨clean_app rfl _ (fun _ h => nomatch h), .cell (c := cel true) rfl (by simp) ⟨_, List.mem_singleton_self _, rfl⟩⟩
  · cases b
    · exact clean_inp _
    · exact clean_k _

theorem own_app {b : Bool} {f : V} (h : kind b f = .plain ∨ f = .s) (args : List (Fm V))
    (ha : ∀ a ∈ args, Own (lang (kind b)) (some (stp b)) a) : Own (lang (kind b)) (some (stp b)) (.app f args) := by
  have hk : kind b f = .plain ∨ kind b f = .step (stp b) := h.imp id (fun h => by rw [h]; rfl)
  have hk' : ∀ k, (lang (kind b)).kind f = k → k = .plain ∨ k = .step (stp b) := by rintro _ rfl; exact hk
  refine .app ?_ ?_ ?_ nofun ?_ ha
  · intro e; rcases hk' _ e with h | h <;> cases h
  · intro e; rcases hk' _ e with h | h <;> cases h
  · intro _ _ _ e; rcases hk' _ e with h | h <;> cases h
  · rintro s _ (e | e | ⟨_, e⟩) <;> rcases hk' _ e with h | h <;> cases h

theorem own_k (b : Bool) : Own (lang (kind b)) (some (stp b)) (kF x0) :=
  own_app (.inl rfl) _ (List.forall_mem_singleton.2 (own_app (.inl rfl) _ (List.forall_mem_singleton.2 .var)))

theorem own_inp : Own (lang (kind false)) (some (stp false)) (inp x0) := by
  refine .app nofun nofun nofun nofun ?_ (List.forall_mem_singleton.2 (own_app (.inr rfl) _ (List.forall_mem_singleton.2 .var)))
  intro s e _; cases e; rfl

theorem own_cell : Own (lang (kind true)) (some (stp true)) (stp true).message := by
  refine .app nofun nofun nofun nofun ?_ (List.forall_mem_singleton.2 (own_app (.inr rfl) _
    (List.forall_mem_cons.2 ⟨.var, List.forall_mem_singleton.2 .var⟩)))
  intro s e _; cases e; rfl

theorem own (b : Bool) : OwnProt (lang (kind b)) [stp b] [cel b] := by
  refine ⟨List.forall_mem_singleton.2 ?_, List.forall_mem_singleton.2 ?_, List.forall_mem_singleton.2 (List.forall_mem_singleton.2 ?_)⟩
  · cases b
    · exact own_app (.inl rfl) _ (List.forall_mem_cons.2 ⟨own_inp, List.forall_mem_singleton.2 (own_k _)⟩)
    · exact own_cell
  · cases b
    · exact own_app (.inl rfl) _ (List.forall_mem_cons.2 ⟨own_inp, List.forall_mem_cons.2 ⟨own_app (.inl rfl) _ (fun _ h => nomatch h),
        List.forall_mem_singleton.2 (own_k _)⟩⟩)
    · exact own_app (.inl rfl) _ (fun _ h => nomatch h)
  · cases b
    · exact own_inp
    · exact own_k _

theorem ord_trans (a b c : Tm V) : ord a b → ord b c → ord a c := by
  rintro ⟨i, j, l, l', rfl, rfl, h⟩ ⟨j', n, m, m', e, rfl, h'⟩
  simp only [Tm.node.injEq, List.cons.injEq, Tm.atom.injEq, and_true, true_and] at e
  exact ⟨i, n, l, m', rfl, rfl, by omega⟩

theorem noExec (b : Bool) {t : Fm V} (h : Over (fun f => f ≠ .exec) t) : NoExec (lang (kind b)) t := by
  intro f hf
  have : f ≠ .exec := by
    clear b
    induction hf with
    | here => cases h with | app h _ => exact h
    | arg ha _ ih => cases h with | app _ h => exact ih (h _ ha)
    | body _ _ => cases h
  cases f <;> cases b <;> simp_all [kind]

theorem noExec' (b : Bool) (t : Fm V) (h : overB (fun f => decide (f ≠ .exec)) t = true) : NoExec (lang (kind b)) t :=
  noExec b (over_of_b (fun f h => by simpa using h) t h)

theorem inp_mentions (b : Bool) (n : Node) (h : Mentions (kind b) (inp x0) n) : n = .input := by
  cases h with
  | cell h => cases h
  | input h => rfl
  | msg h => cases h
  | cond h => cases h
  | taq h => cases h
  | arg ha h =>
    rw [List.mem_singleton] at ha; subst ha
    cases h with
    | cell h => cases h
    | input h => cases h
    | taq h => cases h
    | arg ha h => rw [List.mem_singleton] at ha; subst ha; cases h

/-- A term of plain symbols and variables mentions nothing. -/
theorem plain_mentions (b : Bool) {t : Fm V} (ht : Over (fun f => kind b f = .plain ∨ f = .s) t) (n : Node) : ¬ Mentions (kind b) t n := by
  intro h
  have key : ∀ f : V, kind b f = .plain ∨ f = .s → kind b f = .plain ∨ ∃ s, kind b f = .step s :=
    fun f hf => hf.imp id (fun h => by subst h; exact ⟨_, rfl⟩)
  induction h with
  | cell h | input h | msg h | cond h | taq h =>
    cases ht with
    | app hf _ => rcases key _ hf with h' | ⟨s, h'⟩ <;> rw [h] at h' <;> cases h'
  | arg ha _ ih => cases ht with | app _ h => exact ih (h _ ha)
  | body _ _ => cases ht

theorem plainB (t : Fm V) (b : Bool) (h : overB (fun f => decide (f ∉ [V.msg, .cond, .input, .exec, .c, .q])) t = true) :
    Over (fun f => kind b f = .plain ∨ f = .s) t :=
  over_of_b (fun f h => by cases f <;> first | exact .inl rfl | exact .inr rfl | simp at h) t h

theorem settingR (b : Bool) (R : V → Tm V → Tm V → Prop) : Setting (K b) (str R) where
  logical := logicalR b R
  dom s := by
    cases s with
    | message => exact ⟨.node .p [], .p, [], rfl, rfl, rfl⟩
    | condition => exact ⟨.node .ok [], .ok, [], rfl, rfl, rfl⟩
    | name => exact ⟨.node .k [], .k, [], rfl, rfl, rfl⟩
    | step => exact ⟨.node .s [], [], rfl⟩
    | index => exact ⟨.atom 0, 0, rfl⟩
    | bool => exact ⟨.atom 0, trivial⟩
    | bitstring => exact ⟨.atom 0, trivial⟩
    | user => exact ⟨.atom 0, trivial⟩
  trans := ord_trans
  prot := prot b
  good := good b
  own := own b
  visible := List.forall_mem_singleton.2 (List.forall_mem_singleton.2 (by
    cases b
    · intro n h
      obtain rfl := inp_mentions _ _ h
      exact .input rfl
    · intro n h
      exact absurd h (plain_mentions _ (plainB _ _ (by decide +kernel)) n)))
  inputs := by
    cases b
    · refine .inr (List.forall_mem_singleton.2 fun x => ⟨?_, ?_⟩)
      · intro h
        cases h with
        | cell h => cases h
        | taq h => cases h
        | arg ha h =>
          simp only [List.mem_cons, List.not_mem_nil, or_false] at ha
          rcases ha with rfl | rfl
          · cases inp_mentions _ _ h
          · exact plain_mentions _ (plainB _ _ (by decide +kernel)) _ h
      · intro h
        cases h with
        | cell h => cases h
        | taq h => cases h
        | arg ha h =>
          simp only [List.mem_cons, List.not_mem_nil, or_false] at ha
          rcases ha with rfl | rfl | rfl
          · cases inp_mentions _ _ h
          · exact plain_mentions _ (plainB _ _ (by decide +kernel)) _ h
          · exact plain_mentions _ (plainB _ _ (by decide +kernel)) _ h
    · refine .inl (List.forall_mem_singleton.2 (List.forall_mem_singleton.2 ?_))
      exact plain_mentions _ (plainB _ _ (by decide +kernel)) _
  graph := built b
  stepExec := List.forall_mem_singleton.2 ⟨noExec' _ _ (by cases b <;> decide +kernel), noExec' _ _ (by cases b <;> decide +kernel)⟩
  cellExec := List.forall_mem_singleton.2 (List.forall_mem_singleton.2 (noExec' _ _ (by cases b <;> decide +kernel)))
  taqExec f bd fr cs h := by
    obtain rfl := kind_taq h
    cases b
    · simp only [kind, Bool.false_eq_true, if_false, Kind.taq.injEq] at h
      obtain ⟨rfl, rfl, rfl⟩ := h
      exact List.forall_mem_singleton.2 (noExec' _ _ (by decide +kernel))
    · simp only [kind, if_true, Kind.taq.injEq] at h
      obtain ⟨rfl, rfl, rfl⟩ := h
      exact List.forall_mem_singleton.2 (noExec' _ _ (by decide +kernel))
  evaluated h := by cases h

theorem setting (b : Bool) : Setting (K b) (M b) := settingR b _

theorem infoOK (b : Bool) : InfoOK (K b) (info b) ta gr .name (Every (D := Tm V) ta) [] where
  dflt f h := by
    simp only [info, decide_eq_true_eq, List.mem_cons, List.not_mem_nil, or_false] at h
    rcases h with rfl | rfl | rfl | rfl | rfl | rfl | rfl <;> exact ⟨rfl, rfl⟩
  ta _ h := h
  sorts s _ h _ := .inl (by simpa [info] using h)
  args _ _ _ _ _ h := h.2

theorem namesOK (b : Bool) : NamesOK (K b) (M b) ta where
  names f h := by cases f <;> first | (cases h; done) | exact (nomatch ·)
  cast := ⟨rfl, rfl, rfl⟩
  typed n _ := ⟨.cast, [n], rfl, rfl, rfl⟩
  fresh n m _ _ h := by
    have h : val (.node .cast [n]) = val m := h
    have hc : Contains (lang (kind b)) [stp b] (M b) (Every ta) (fun _ => True) n (.node .cast [n]) :=
      .part (M := M b) (f := .cast) (l := [n]) ⟨rfl, by simp⟩ .here
    have e : val (.node .cast [n]) = .node .cast [n] := rfl
    rw [e] at h
    unfold val at h
    split at h
    · simp only [Tm.node.injEq, List.cons.injEq, and_true, true_and] at h
      subst h
      exact .part (M := M b) (f := .g) (l := [.node .cast [n]]) ⟨rfl, by simp⟩ hc
    · subst h; exact hc

/-! ### The searches do not clash -/

def isStepMac : Fm V → Bool
  | .app .msg _ => true
  | .app .cond _ => true
  | _ => false

/-- What `SpecialOK` asks for, computed. -/
def specialB (b : Bool) (Sb : Sub V) (fl : Flags) (keepGuard : Bool) (f : V) (ss : List Srt) : Bool :=
  let C := (K b).search Sb keepGuard
  let roots : List (Fm V × List Var) := [(.app f (((K b).spVars (info b) ss).map .var), [])]
  let E := visitAll C 8 (roots.map (fun p => (p.1, ⟨fl, p.2, none⟩)))
  closedB C fl roots E &&
  E.all (fun p => p.2.bound.all (fun v => decide (v.id ∉ ((K b).spVars (info b) ss ++ [(K b).spX (info b) Sb]).map Var.id)) &&
    (!isStepMac p.1 || (stp b).vars.all (fun v => decide (v.id ∉ p.2.bound.map Var.id))))

theorem special_of (b : Bool) {Sb : Sub V} {fl : Flags} {keepGuard : Bool} {f : V} (hne : f ≠ .exec) {ss : List Srt}
    (hss : insort b f = some ss) (hgr : ∀ s ∈ ss, gr s) (h : specialB b Sb fl keepGuard f ss = true) :
    SpecialOK (K b) (info b) gr Sb fl keepGuard f := by
  refine ⟨by cases f <;> cases b <;> simp_all [kind], fun ss' hss' => ?_⟩
  have : some ss = some ss' := hss.symm.trans hss'
  cases this
  simp only [specialB, Bool.and_eq_true, List.all_eq_true, decide_eq_true_eq, Bool.or_eq_true, Bool.not_eq_true'] at h
  refine ⟨hgr, fun t st he v hv => ?_, fun f' args st he hk _ s hs v hv => ?_⟩
  · exact (h.2 _ (elem_of_closed (by simpa using h.1) he)).1 v hv
  · have hs : s ∈ [stp b] := hs
    rw [List.mem_singleton] at hs; subst hs
    have := (h.2 _ (elem_of_closed (by simpa using h.1) he)).2
    have hm : isStepMac (.app f' args) = true := by
      cases f' <;> cases b <;> first | rfl | (simp [Pbl.search, kind] at hk)
    rcases this with h' | h'
    · rw [hm] at h'; cases h'
    · exact h' v hv

theorem specials {Sb : Sub V} {fl : Flags} {keepGuard : Bool}
    (h : ∀ p ∈ [(V.msg, Srt.step), (.cond, .step), (.input, .step), (.c, .step), (.q, .index)],
      specialB false Sb fl keepGuard p.1 [p.2] = true) (f : V) (hf : f ∈ functions) (hd : (info false).dflt f = false)
    (hne : f ≠ .exec) : SpecialOK (K false) (info false) gr Sb fl keepGuard f := by
  have st : ∀ s ∈ [Srt.step], gr s := List.forall_mem_singleton.2 (.inr rfl)
  have ix : ∀ s ∈ [Srt.index], gr s := List.forall_mem_singleton.2 (.inl rfl)
  cases f
  case msg => exact special_of false hne rfl st (h (.msg, .step) (by simp))
  case cond => exact special_of false hne rfl st (h (.cond, .step) (by simp))
  case input => exact special_of false hne rfl st (h (.input, .step) (by simp))
  case c => exact special_of false hne rfl st (h (.c, .step) (by simp))
  case q => exact special_of false hne rfl ix (h (.q, .index) (by simp))
  case exec => exact absurd rfl hne
  all_goals first | (simp [functions] at hf; done) | simp [info] at hd

abbrev nsym : Option Srt → Option V := fun _ => some .sub

/-! ### A problem for which all axioms but that of `exec` are true -/

/-- C46 is not vacuous: in this structure all axioms about nonces but that of `exec` are true. -/
example (vampire : Bool) : ∃ axs ground, (K false).nonce (info false) vampire nsym = some (axs, ground) ∧ axs.length ≥ 8 ∧
    (∀ φ ∈ axs, (∀ ρ, (M false).truth (Fm.eval (M false) ρ φ)) ∨
      (K false).specialAx (info false) (nonceSub nsym) .all true .exec = some φ) ∧
    ∀ ρ, (M false).truth (Fm.eval (M false) ρ ground) := by
  have h : ((K false).nonce (info false) vampire nsym).map (fun p => decide (p.1.length ≥ 8)) = some true := by
    cases vampire <;> decide +kernel
  obtain ⟨⟨axs, ground⟩, h1, h2⟩ := Option.map_eq_some_iff.1 h
  have H := fun ρ => C46_nonce_partial (setting false) (world false (.inl rfl)) (readsN false .name) (namesOK false) (infoOK false) h1 ρ
  refine ⟨axs, ground, h1, by simpa using h2, fun φ hφ => ?_, fun ρ => (H ρ).2⟩
  by_cases hx : (K false).specialAx (info false) (nonceSub nsym) .all true .exec = some φ
  · exact .inr hx
  · refine .inl fun ρ => ?_
    rcases (H ρ).1 φ hφ with h | ⟨f, hf, hd, hn, h⟩
    · exact h
    · exact absurd (specials (by decide +kernel) f hf hd (by rintro rfl; exact hx h)) hn

/-- C63 is not vacuous for a MAC. -/
example (vampire : Bool) : ∃ axs, U.defineSubterms (K false) (info false) vampire = some axs ∧ axs.length ≥ 10 ∧
    ∀ φ ∈ axs, (∀ ρ, (M false).truth (Fm.eval (M false) ρ φ)) ∨ ∃ f ∈ [V.exec, .mac, .verify],
      (K false).specialAx (info false) (U.key (K false)) .noRecMacro false f = some φ ∨
      (K false).specialAx (info false) (U.main (K false)) .all true f = some φ := by
  have h : (U.defineSubterms (K false) (info false) vampire).map (fun p => decide (p.length ≥ 10)) = some true := by
    cases vampire <;> decide +kernel
  obtain ⟨axs, h1, h2⟩ := Option.map_eq_some_iff.1 h
  refine ⟨axs, h1, by simpa using h2, fun φ hφ => ?_⟩
  have H := C63_mac_partial (setting false) (U := U) (ta := ta) (gr := gr) rfl (by decide) rfl rfl rfl (world false (.inl rfl)) (world false (.inr rfl))
    (readsK false) (readsM false) (infoOK false) (fun s _ h => .inl (by simpa [info] using h)) h1 φ hφ
  rcases H with h | ⟨f, hf, h | h⟩
  · exact .inl h
  · refine .inr ⟨f, ?_, .inl h.2⟩
    by_cases hx : f = .exec
    · subst hx; decide
    · cases hd : (info false).dflt f with
      | true => have := h.1; rw [hd] at this; exact List.mem_cons_of_mem _ this
      | false => have := h.1; rw [hd] at this; exact absurd (specials (by decide +kernel) f hf hd hx) this
  · refine .inr ⟨f, ?_, .inr h.2⟩
    by_cases hx : f = .exec
    · subst hx; decide
    · cases hd : (info false).dflt f with
      | true => have := h.1; rw [hd] at this; exact List.mem_cons_of_mem _ this
      | false => have := h.1; rw [hd] at this; exact absurd (specials (by decide +kernel) f hf hd hx) this

/-- C63 is not vacuous for a signature. -/
example (vampire : Bool) : ∃ axs, W.defineSubterms (K false) (info false) vampire = some axs ∧ axs.length ≥ 10 ∧
    ∀ φ ∈ axs, (∀ ρ, (M false).truth (Fm.eval (M false) ρ φ)) ∨ ∃ f ∈ [V.exec, .mac, .bits],
      (K false).specialAx (info false) (W.key (K false)) .noRecMacro false f = some φ ∨
      (f = .exec ∧ (K false).specialAx (info false) W.main .all true f = some φ) := by
  have h : (W.defineSubterms (K false) (info false) vampire).map (fun p => decide (p.length ≥ 10)) = some true := by
    cases vampire <;> decide +kernel
  obtain ⟨axs, h1, h2⟩ := Option.map_eq_some_iff.1 h
  refine ⟨axs, h1, by simpa using h2, fun φ hφ => ?_⟩
  have H := C63_signature_partial (setting false) (U := W) (ta := ta) (gr := gr) (by decide) rfl rfl (world false (.inl rfl)) (world false (.inr rfl))
    (readsS false) (readsN false .message) (infoOK false) (fun s _ h => .inl (by simpa [info] using h)) h1 φ hφ
  rcases H with h | ⟨f, hf, h | h⟩
  · exact .inl h
  · refine .inr ⟨f, ?_, .inl h.2⟩
    by_cases hx : f = .exec
    · subst hx; decide
    · cases hd : (info false).dflt f with
      | true => have := h.1; rw [hd] at this; exact List.mem_cons_of_mem _ this
      | false => have := h.1; rw [hd] at this; exact absurd (specials (by decide +kernel) f hf hd hx) this
  · by_cases hx : f = .exec
    · subst hx; exact .inr ⟨.exec, by decide, .inr ⟨rfl, h.2.2⟩⟩
    · exact absurd (specials (by decide +kernel) f hf h.1 hx) h.2.1

/-- C63 is not vacuous for ciphertexts. -/
example (vampire : Bool) : ∃ axs, X.defineSubterms (K false) (info false) vampire = some axs ∧ axs.length ≥ 10 ∧
    ∀ φ ∈ axs, (∀ ρ, (M false).truth (Fm.eval (M false) ρ φ)) ∨ ∃ f ∈ [V.exec, .verify, .mac],
      (f = .exec ∧ (K false).specialAx (info false) X.main .all true f = some φ) ∨
      (K false).specialAx (info false) (X.key (K false)) .all false f = some φ ∨
      (K false).specialAx (info false) (X.rand (K false)) .all false f = some φ := by
  have h : (X.defineSubterms (K false) (info false) vampire).map (fun p => decide (p.length ≥ 10)) = some true := by
    cases vampire <;> decide +kernel
  obtain ⟨axs, h1, h2⟩ := Option.map_eq_some_iff.1 h
  refine ⟨axs, h1, by simpa using h2, fun φ hφ => ?_⟩
  have H := C63_ctxt_partial (setting false) (X := X) (ta := ta) (gr := gr) (by decide) rfl rfl (world false (.inl rfl)) (world false (.inr rfl))
    (readsN false .message) (readsCK false) (readsCR false) (infoOK false) (fun s _ h => .inl (by simpa [info] using h)) h1 φ hφ
  rcases H with h | ⟨f, hf, h | h | h⟩
  · exact .inl h
  · by_cases hx : f = .exec
    · subst hx; exact .inr ⟨.exec, by decide, .inl ⟨rfl, h.2.2⟩⟩
    · exact absurd (specials (by decide +kernel) f hf h.1 hx) h.2.1
  · refine .inr ⟨f, ?_, .inr (.inl h.2)⟩
    by_cases hx : f = .exec
    · subst hx; decide
    · cases hd : (info false).dflt f with
      | true => have := h.1; rw [hd] at this; exact List.mem_cons_of_mem _ this
      | false => have := h.1; rw [hd] at this; exact absurd (specials (by decide +kernel) f hf hd hx) this
  · refine .inr ⟨f, ?_, .inr (.inr h.2)⟩
    by_cases hx : f = .exec
    · subst hx; decide
    · cases hd : (info false).dflt f with
      | true =>
        have := h.1; rw [hd] at this
        exact List.mem_cons_of_mem _ (List.mem_cons.2 (.inl (List.mem_singleton.1 this)))
      | false => have := h.1; rw [hd] at this; exact absurd (specials (by decide +kernel) f hf hd hx) this

/-! ### Axioms that are false -/

/-- An axiom is false for the values `τ` of its variables. -/
theorem refute {b : Bool} {vs : List Var} {p q : Fm V} {τ : Valn (Tm V)} (hd : InDom (M b) vs τ)
    (hp : (M b).truth (Fm.eval (M b) τ p)) (hq : ¬ (M b).truth (Fm.eval (M b) τ q)) :
    ¬ (M b).truth (Fm.eval (M b) τ (.quant .all vs (.app .imp [p, q]))) := by
  intro h
  rw [Fm.eval, (M b).truth_ofProp] at h
  have := quantVal_all_elim (M b) _ vs τ τ (fun _ _ => rfl) hd h
  exact hq (this hp)

theorem and_at {b : Bool} {τ : Valn (Tm V)} {l : List (Fm V)} (h : (M b).truth (Fm.eval (M b) τ (.app .and l))) (φ : Fm V) (hφ : φ ∈ l) :
    (M b).truth (Fm.eval (M b) τ φ) := by
  refine h _ ?_
  rw [evals_map]
  exact List.mem_map_of_mem hφ

theorem or_at {b : Bool} {τ : Valn (Tm V)} {l : List (Fm V)} (h : (M b).truth (Fm.eval (M b) τ (.app .or l))) :
    ∃ φ ∈ l, (M b).truth (Fm.eval (M b) τ φ) := by
  obtain ⟨d, hd, h⟩ := h
  rw [evals_map] at hd
  obtain ⟨φ, hφ, rfl⟩ := List.mem_map.1 hd
  exact ⟨φ, hφ, h⟩

/-- A name. -/
def nm (i : Nat) : Tm V := .node .k [.atom i]
theorem nm_dom (i : Nat) : dom .name (nm i) := ⟨.k, [.atom i], rfl, rfl, rfl⟩

/-- Every argument of a symbol of the term algebra. -/
theorem in_arg {b : Bool} {follow : V → Prop} {n a : Tm V} {f : V} {l : List (Tm V)} (hf : ta f) (ha : a ∈ l)
    (h : Contains (lang (kind b)) [stp b] (M b) (Every ta) follow n a) :
    Contains (lang (kind b)) [stp b] (M b) (Every ta) follow n (.node f l) := by
  rw [← fn_con (rel b) (ta_S f hf)]
  exact .part ⟨hf, ha⟩ h

def execAx : Fm V :=
  .quant .all [⟨3, .step⟩, ⟨2, .name⟩] (.app .imp [.app .sub [.var ⟨2, .name⟩, .app .exec [.var ⟨3, .step⟩]],
    .app .or [.quant .ex [x0, x1] (.app .or [
      .app .and [.app .eq [.var ⟨2, .name⟩, .app .k [.var x0]], .app .lt [.app .s [.var x0], .var ⟨3, .step⟩]],
      .app .and [.app .eq [.var ⟨2, .name⟩, .app .k [.var x1]],
        .app .and [.app .lt [.app .s [.var x0], .var ⟨3, .step⟩], .app .lt [.app .s [.var x1], .app .s [.var x0]]]]])]])

/-- **C46 fails for `exec`**: what `exec` is computed from at the last step is not looked at. Here the condition of a
step verifies a MAC with the key `k`, and the axiom says that `k` does not occur in `exec` at the first step. -/
theorem C46_exec_counterexample (vampire : Bool) : Setting (K false) (M false) ∧ World (K false) (M false) S ta .name gr ∧
    Reads (K false) (M false) (Every ta) (fun _ => True) (nonceSub nsym) ∧ NamesOK (K false) (M false) ta ∧
    ∃ axs ground, (K false).nonce (info false) vampire nsym = some (axs, ground) ∧
      ∃ φ ∈ axs, ∃ ρ, ¬ (M false).truth (Fm.eval (M false) ρ φ) := by
  refine ⟨setting _, world _ (.inl rfl), readsN _ _, namesOK _, ?_⟩
  have h : ((K false).nonce (info false) vampire nsym).map (fun p => decide (execAx ∈ p.1)) = some true := by
    cases vampire <;> decide +kernel
  obtain ⟨⟨axs, ground⟩, h1, h2⟩ := Option.map_eq_some_iff.1 h
  refine ⟨axs, ground, h1, execAx, by simpa using h2, fun i => if i = 2 then nm 0 else .node .s [.atom 0], refute ?_ ?_ ?_⟩
  · exact List.forall_mem_cons.2 ⟨⟨_, rfl⟩, List.forall_mem_singleton.2 (nm_dom 0)⟩
  · show Contains (lang (kind false)) [stp false] M0 (Every ta) (fun _ => True) (nm 0) (.node .exec [.node .s [.atom 0]])
    rw [contains_iff false Every.is_ta, ← fn_con (rel false) (f := .exec) rfl]
    refine .opened (y := ((stp false).condition, fun _ => .atom 0)) trivial (.exec rfl rfl (.exec (by simp) ?_ (.inr rfl))) ?_
    · exact List.forall_mem_singleton.2 ⟨0, rfl⟩
    · show Contains _ _ _ _ _ (nm 0) (.node .verify [_, _, .node .cast [nm 0]])
      exact in_arg (a := .node .cast [nm 0]) rfl (by simp) (in_arg (f := .cast) (l := [nm 0]) rfl (by simp) .here)
  · intro h
    obtain ⟨d, hd, h⟩ := h
    rw [evals, evals, List.mem_singleton] at hd
    subst hd
    rw [Fm.eval] at h
    obtain ⟨τ, h1, h2, h3⟩ := (quantVal_ex_iff (M false) _ [x0, x1] _ (by decide)).1 h
    have e2 : τ 2 = nm 0 := h1 2 (by decide)
    have e3 : τ 3 = .node .s [.atom 0] := h1 3 (by decide)
    have lt0 : ∀ d, ¬ ord (.node .s [d]) (τ 3) := by
      rintro d ⟨i, j, l, l', _, h, hij⟩
      rw [e3] at h
      simp only [Tm.node.injEq, List.cons.injEq, Tm.atom.injEq, true_and] at h
      omega
    obtain ⟨φ, hφ, h⟩ := or_at h3
    simp only [List.mem_cons, List.not_mem_nil, or_false] at hφ
    rcases hφ with rfl | rfl
    · exact lt0 (τ 0) (and_at h (.app .lt [.app .s [.var x0], .var ⟨3, .step⟩]) (by simp))
    · have h' := and_at h (.app .and [.app .lt [.app .s [.var x0], .var ⟨3, .step⟩], .app .lt [.app .s [.var x1], .app .s [.var x0]]]) (by simp)
      exact lt0 (τ 0) (and_at h' (.app .lt [.app .s [.var x0], .var ⟨3, .step⟩]) (by simp))

def captureAx : Fm V :=
  .quant .all [⟨4, .step⟩, ⟨3, .name⟩] (.app .imp [.app .sub [.var ⟨3, .name⟩, .app .msg [.var ⟨4, .step⟩]],
    .app .or [.quant .ex [x0, x1, ⟨2, .index⟩, ⟨3, .index⟩] (.app .or [
      .app .and [.app .eq [.var ⟨3, .name⟩, .app .k [.var ⟨2, .index⟩]],
        .app .and [.app .eq [.var ⟨4, .step⟩, .app .s [.var x0, .var x1]],
          .app .or [.app .lt [.app .s [.var ⟨2, .index⟩, .var ⟨3, .index⟩], .app .s [.var x0, .var x1]],
            .app .eq [.app .s [.var ⟨2, .index⟩, .var ⟨3, .index⟩], .app .s [.var x0, .var x1]]]]]])]])

def messageAx : Fm V :=
  .quant .all [⟨4, .message⟩, ⟨3, .name⟩] (.app .imp [.app .sub [.var ⟨3, .name⟩, .app .q [.var ⟨4, .message⟩]], .app .or []])

/-- **C46 fails by capture**: the variable searched for has the number of a variable introduced by the search, when a
step has two parameters and sends a cell it assigns. The axiom then says that no name occurs in its message. -/
theorem C46_capture_counterexample (vampire : Bool) : Setting (K true) (M true) ∧ World (K true) (M true) S ta .name gr ∧
    Reads (K true) (M true) (Every ta) (fun _ => True) (nonceSub nsym) ∧ NamesOK (K true) (M true) ta ∧
    ∃ axs ground, (K true).nonce (info true) vampire nsym = some (axs, ground) ∧
      ∃ φ ∈ axs, ∃ ρ, ¬ (M true).truth (Fm.eval (M true) ρ φ) := by
  refine ⟨setting _, world _ (.inl rfl), readsN _ _, namesOK _, ?_⟩
  have h : ((K true).nonce (info true) vampire nsym).map (fun p => decide (captureAx ∈ p.1)) = some true := by
    cases vampire <;> decide +kernel
  obtain ⟨⟨axs, ground⟩, h1, h2⟩ := Option.map_eq_some_iff.1 h
  refine ⟨axs, ground, h1, captureAx, by simpa using h2, fun i => if i = 3 then nm 0 else .node .s [.atom 0, .atom 0], refute ?_ ?_ ?_⟩
  · exact List.forall_mem_cons.2 ⟨⟨_, rfl⟩, List.forall_mem_singleton.2 (nm_dom 0)⟩
  · show Contains (lang (kind true)) [stp true] M0 (Every ta) (fun _ => True) (nm 0) (.node .msg [.node .s [.atom 0, .atom 0]])
    have hd : InDom (M true) (stp true).vars (fun _ => .atom 0) :=
      List.forall_mem_cons.2 ⟨⟨0, rfl⟩, List.forall_mem_singleton.2 ⟨0, rfl⟩⟩
    rw [contains_iff true Every.is_ta, ← fn_con (rel true) (f := .msg) rfl]
    refine .opened (y := ((stp true).message, fun _ => .atom 0)) trivial (.msg rfl (by simp) hd) ?_
    show Contains _ _ _ _ _ (nm 0) (.node .c [.node .s [.atom 0, .atom 0]])
    rw [← fn_con (rel true) (f := .c) rfl]
    refine .opened (y := (kF x0, fun _ => .atom 0)) trivial
      (.cell rfl rfl (.cell (a := ⟨stp true, [], kF x0, []⟩) (List.mem_singleton_self _) hd (.inr rfl))) ?_
    exact in_arg (f := .cast) (l := [nm 0]) rfl (by simp) .here
  · intro h
    obtain ⟨d, hd, h⟩ := h
    rw [evals, evals, List.mem_singleton] at hd
    subst hd
    rw [Fm.eval] at h
    obtain ⟨τ, h1, h2, h3⟩ := (quantVal_ex_iff (M true) _ [x0, x1, ⟨2, .index⟩, ⟨3, .index⟩] _ (by decide)).1 h
    obtain ⟨n, hn⟩ := h2 ⟨3, .index⟩ (by simp)
    have hn : τ 3 = .atom n := hn
    obtain ⟨φ, hφ, h⟩ := or_at h3
    rw [List.mem_singleton] at hφ
    subst hφ
    have : τ 3 = .node .k [τ 2] := and_at h (.app .eq [.var ⟨3, .name⟩, .app .k [.var ⟨2, .index⟩]]) (by simp)
    rw [hn] at this
    cases this

/-- **C46 fails for parameters that stand for messages**: the axiom of a quantifier symbol with such a parameter says
that no name occurs in it, whatever the argument. -/
theorem C46_message_argument_counterexample (vampire : Bool) : Setting (K true) (M true) ∧ World (K true) (M true) S ta .name gr ∧
    Reads (K true) (M true) (Every ta) (fun _ => True) (nonceSub nsym) ∧ NamesOK (K true) (M true) ta ∧
    ∃ axs ground, (K true).nonce (info true) vampire nsym = some (axs, ground) ∧
      ∃ f ss φ, insort true f = some ss ∧ .message ∈ ss ∧ (K true).specialAx (info true) (nonceSub nsym) .all true f = some φ ∧
        φ ∈ axs ∧ ∃ ρ, ¬ (M true).truth (Fm.eval (M true) ρ φ) := by
  refine ⟨setting _, world _ (.inl rfl), readsN _ _, namesOK _, ?_⟩
  have h : ((K true).nonce (info true) vampire nsym).map (fun p => decide (messageAx ∈ p.1)) = some true := by
    cases vampire <;> decide +kernel
  obtain ⟨⟨axs, ground⟩, h1, h2⟩ := Option.map_eq_some_iff.1 h
  refine ⟨axs, ground, h1, .q, [.message], messageAx, rfl, by simp, by decide +kernel, by simpa using h2,
    fun i => if i = 3 then nm 0 else .node .cast [nm 0], refute ?_ ?_ ?_⟩
  · exact List.forall_mem_cons.2 ⟨⟨.cast, _, rfl, rfl, rfl⟩, List.forall_mem_singleton.2 (nm_dom 0)⟩
  · show Contains (lang (kind true)) [stp true] M0 (Every ta) (fun _ => True) (nm 0) (.node .q [.node .cast [nm 0]])
    rw [contains_iff true Every.is_ta]
    exact in_arg (a := .node .cast [nm 0]) rfl (by simp) (in_arg (f := .cast) (l := [nm 0]) rfl (by simp) .here)
  · intro h
    obtain ⟨d, hd, h⟩ := h
    cases hd

def ignoredAx : Fm V :=
  .quant .all [⟨3, .message⟩, ⟨4, .message⟩, ⟨2, .name⟩] (.app .imp [.app .key [.var ⟨2, .name⟩,
    .app .mac [.var ⟨3, .message⟩, .var ⟨4, .message⟩]], .app .or []])

def signAx : Fm V :=
  .quant .all [⟨3, .message⟩, ⟨2, .name⟩] (.app .imp [.app .skey [.var ⟨2, .name⟩,
    .app .bits [.var ⟨3, .message⟩]], .app .or []])

def mainAx : Fm V :=
  .quant .all [⟨3, .message⟩, ⟨4, .message⟩, ⟨2, .message⟩] (.app .imp [.app .main [.var ⟨2, .message⟩,
    .app .mac [.var ⟨3, .message⟩, .var ⟨4, .message⟩]], .app .or [
      .app .and [.app .eq [.var ⟨2, .message⟩, .var ⟨4, .message⟩]], .app .and [.app .eq [.var ⟨2, .message⟩, .var ⟨3, .message⟩]],
      .app .and [.app .eq [.var ⟨2, .message⟩, .app .mac [.var ⟨3, .message⟩, .var ⟨4, .message⟩]]]]])

/-- **C63 fails for the ignored functions.** Their arguments are variables when their axiom is made, in which nothing
is found: the axiom for `mac` of the predicate for keys says that no key occurs in a MAC, even in the message; that of
the predicate for messages says that only the MAC itself, its message and its key occur in it, and not what occurs in
the message; the axiom for public keys says that no key occurs in `pk(…)`, even one that is not the key. -/
theorem C63_ignored_counterexample (vampire : Bool) : Setting (K false) (M false) ∧
    (∃ axs, U.defineSubterms (K false) (info false) vampire = some axs ∧
      (ignoredAx ∈ axs ∧ ∃ ρ, ¬ (M false).truth (Fm.eval (M false) ρ ignoredAx)) ∧
      (mainAx ∈ axs ∧ ∃ ρ, ¬ (M false).truth (Fm.eval (M false) ρ mainAx))) ∧
    (∃ axs, W.defineSubterms (K false) (info false) vampire = some axs ∧
      signAx ∈ axs ∧ ∃ ρ, ¬ (M false).truth (Fm.eval (M false) ρ signAx)) := by
  refine ⟨setting _, ?_, ?_⟩
  · have h : (U.defineSubterms (K false) (info false) vampire).map (fun p => decide (ignoredAx ∈ p) && decide (mainAx ∈ p)) = some true := by
      cases vampire <;> decide +kernel
    obtain ⟨axs, h1, h2⟩ := Option.map_eq_some_iff.1 h
    simp only [Bool.and_eq_true, decide_eq_true_eq] at h2
    refine ⟨axs, h1, ⟨h2.1, fun i => if i = 2 then nm 0 else .node .cast [nm 0], refute ?_ ?_ ?_⟩,
      ⟨h2.2, fun i => if i = 2 then .node .p [] else .node .g [.node .p []], refute ?_ ?_ ?_⟩⟩
    · exact List.forall_mem_cons.2 ⟨⟨.cast, _, rfl, rfl, rfl⟩, List.forall_mem_cons.2 ⟨⟨.cast, _, rfl, rfl, rfl⟩, List.forall_mem_singleton.2 (nm_dom 0)⟩⟩
    · show Contains (lang (kind false)) [stp false] M0 (KeyParts M0 .mac .verify .cast ta) (IsTaq (K false)) (nm 0)
        (.node .mac [.node .cast [nm 0], .node .cast [nm 0]])
      rw [← fn_con (fun _ _ _ => False) (f := .mac) rfl, ← fn_con (fun _ _ _ => False) (f := .cast) rfl]
      exact .part (a := M0.fn .cast [nm 0]) ⟨rfl, .inr (.inl ⟨rfl, .inl (by simp)⟩)⟩ (.part ⟨rfl, .inl ⟨by decide, by decide, by simp⟩⟩ .here)
    · rintro ⟨d, hd, h⟩
      cases hd
    · exact List.forall_mem_cons.2 ⟨⟨.g, _, rfl, rfl, rfl⟩, List.forall_mem_cons.2 ⟨⟨.g, _, rfl, rfl, rfl⟩,
        List.forall_mem_singleton.2 ⟨.p, _, rfl, rfl, rfl⟩⟩⟩
    · show Contains (lang (kind false)) [stp false] M0 (MainParts M0 .mac .verify ta) (fun _ => True) (.node .p [])
        (.node .mac [.node .g [.node .p []], .node .g [.node .p []]])
      rw [← fn_con (fun _ _ _ => False) (f := .mac) rfl, ← fn_con (fun _ _ _ => False) (f := .g) rfl]
      exact .part (a := M0.fn .g [.node .p []]) ⟨rfl, .inl ⟨by decide, by simp⟩⟩ (.part ⟨rfl, .inl ⟨by decide, by simp⟩⟩ .here)
    · intro h
      obtain ⟨φ, hφ, h⟩ := or_at h
      simp only [List.mem_cons, List.not_mem_nil, or_false] at hφ
      rcases hφ with rfl | rfl | rfl
      · have h : Tm.node V.p [] = Tm.node V.g [.node .p []] := and_at h _ (List.mem_singleton_self _)
        cases h
      · have h : Tm.node V.p [] = Tm.node V.g [.node .p []] := and_at h _ (List.mem_singleton_self _)
        cases h
      · have h : Tm.node V.p [] = Tm.node V.mac [.node .g [.node .p []], .node .g [.node .p []]] :=
          and_at h _ (List.mem_singleton_self _)
        cases h
  · have h : (W.defineSubterms (K false) (info false) vampire).map (fun p => decide (signAx ∈ p)) = some true := by
      cases vampire <;> decide +kernel
    obtain ⟨axs, h1, h2⟩ := Option.map_eq_some_iff.1 h
    refine ⟨axs, h1, by simpa using h2, fun i => if i = 2 then nm 0 else .node .g [.node .cast [nm 0]], refute ?_ ?_ ?_⟩
    · exact List.forall_mem_cons.2 ⟨⟨.g, _, rfl, rfl, rfl⟩, List.forall_mem_singleton.2 (nm_dom 0)⟩
    · show Contains (lang (kind false)) [stp false] M0 (SignParts M0 .mac .bits .cast ta) (IsTaq (K false)) (nm 0)
        (.node .bits [.node .g [.node .cast [nm 0]]])
      rw [← fn_con (fun _ _ _ => False) (f := .bits) rfl, ← fn_con (fun _ _ _ => False) (f := .g) rfl,
        ← fn_con (fun _ _ _ => False) (f := .cast) rfl]
      refine .part (a := M0.fn .g [M0.fn .cast [nm 0]]) ⟨rfl, .inr (.inr ⟨rfl, rfl, fun as h => ?_⟩)⟩
        (.part (a := M0.fn .cast [nm 0]) ⟨rfl, .inl ⟨by decide, by decide, by simp⟩⟩ (.part ⟨rfl, .inl ⟨by decide, by decide, by simp⟩⟩ .here))
      have h : Tm.node V.g [.node .cast [nm 0]] = Tm.node V.cast as := h
      cases h
    · rintro ⟨d, hd, h⟩
      cases hd

end TEx
end Cry
end CV
