import Verif.SearchMain
import Verif.UnfoldProps
set_option linter.unusedSimpArgs false
/-
Cases that meet the hypotheses of C25, C26 and C30, and protocols on which the full properties fail.
-/
namespace CV
namespace Dep
open Fm
variable {F D : Type}

deriving instance DecidableEq for UState

/-! ### Computing what is visited -/

/-- One step of the search, for the examples. -/
def visitNext (C : SearchCfg F) (p : Fm F × UState F) : List (Fm F × UState F) :=
  ((unfold C.L C.steps C.G p.1 p.2).getD []) ++ (C.A.nexts p.1).map (fun a => (a, p.2))

/-- `E` contains the roots and what is visited from its elements. -/
def closedB [DecidableEq F] (C : SearchCfg F) (fl : Flags) (roots : List (Fm F × List Var)) (E : List (Fm F × UState F)) : Bool :=
  roots.all (fun p => decide ((p.1, (⟨fl, p.2, none⟩ : UState F)) ∈ E)) &&
  E.all (fun p => (visitNext C p).all (fun q => decide (q ∈ E)))

theorem elem_of_closed [DecidableEq F] {C : SearchCfg F} {fl : Flags} {roots : List (Fm F × List Var)} {E : List (Fm F × UState F)}
    (h : closedB C fl roots E = true) {t : Fm F} {st : UState F} (he : Elem C fl roots t st) : (t, st) ∈ E := by
  simp only [closedB, Bool.and_eq_true, List.all_eq_true, decide_eq_true_eq] at h
  induction he with
  | root hr => exact h.1 _ hr
  | unfold _ hu hm ih => exact h.2 _ ih _ (List.mem_append_left _ (by rw [hu]; exact hm))
  | next _ ha ih => exact h.2 _ ih _ (List.mem_append_right _ (List.mem_map_of_mem ha))

/-- Everything visited, for the examples. -/
def visitAll (C : SearchCfg F) : Nat → List (Fm F × UState F) → List (Fm F × UState F)
  | 0, l => l
  | n + 1, l => l ++ visitAll C n (l.flatMap (visitNext C))

mutual
def overB (b : F → Bool) : Fm F → Bool
  | .var _ => true
  | .app f args => b f && oversB b args
  | .quant _ _ _ => false
def oversB (b : F → Bool) : List (Fm F) → Bool
  | [] => true
  | a :: as => overB b a && oversB b as
end

mutual
theorem over_of_b {b : F → Bool} {S : F → Prop} (hb : ∀ f, b f = true → S f) : ∀ t : Fm F, overB b t = true → Over S t
  | .var _, _ => .var _
  | .app f args, h => by
    simp only [overB, Bool.and_eq_true] at h
    exact .app (hb f h.1) (overs_of_b hb args h.2)
  | .quant _ _ _, h => by simp [overB] at h
theorem overs_of_b {b : F → Bool} {S : F → Prop} (hb : ∀ f, b f = true → S f) : ∀ l : List (Fm F), oversB b l = true → ∀ a ∈ l, Over S a
  | [], _ => fun _ h => by cases h
  | a :: as, h => by
    simp only [oversB, Bool.and_eq_true] at h
    intro x hx
    rcases List.mem_cons.1 hx with e | hx
    · rw [e]; exact over_of_b hb a h.1
    · exact overs_of_b hb as h.2 x hx
end

namespace SEx

/-- The symbols of the examples. -/
inductive Y
  | eq | and | or | imp | tru | lt
  | s | s2 | msg | cond | input | exec | c | d | q
  | mac | verify | k | k2 | cast | ok | p | g | sub
  deriving DecidableEq

def out : Y → Srt
  | .eq | .and | .or | .imp | .tru | .lt | .sub => .bool
  | .s | .s2 => .step
  | .cond | .exec | .ok | .verify => .condition
  | .k | .k2 => .name
  | _ => .message

/-- The language, for given kinds of symbols. -/
def lang (kind : Y → Kind Y) : Lang Y where
  eq := .eq
  and := .and
  or := .or
  imp := .imp
  tru := .tru
  lt := .lt
  kind := kind
  out f := some (out f)
  infer _ _ := none

theorem lang_distinct (kind : Y → Kind Y) : (lang kind).Distinct := ⟨by simp [lang]⟩

def x0 : Var := ⟨0, .index⟩
def x1 : Var := ⟨1, .index⟩

/-- The key, as a name and as a message. -/
def nk : Fm Y := .app .k []
def mk : Fm Y := .app .cast [nk]
def tp (v : Var) : Fm Y := .app .s [.var v]
def inp (v : Var) : Fm Y := .app .input [tp v]

/-- The subterm predicate (of the example: equality). -/
def rel : Y → Option (Tm Y → Tm Y → Prop)
  | .sub => some Eq
  | _ => none

def isLogic : Y → Bool
  | .eq | .and | .or | .imp | .tru | .lt | .sub => true
  | _ => false

theorem builds (kind : Y → Kind Y) (f : Y) (h : (!isLogic f) = true) : Builds (lang kind) rel f := by
  cases f <;> simp_all [isLogic, Builds, lang, rel]

/-- The order of the numbers of the time points. -/
def ord (a b : Tm Y) : Prop := ∃ i j : Nat, a = .node .s [.atom i] ∧ b = .node .s [.atom j] ∧ i < j

theorem ord_trans (a b c : Tm Y) : ord a b → ord b c → ord a c := by
  rintro ⟨i, j, rfl, rfl, h⟩ ⟨j', l, e, rfl, h'⟩
  simp only [Tm.node.injEq, List.cons.injEq, Tm.atom.injEq, and_true, true_and] at e
  exact ⟨i, l, rfl, rfl, by omega⟩

/-! ### A protocol that meets all hypotheses -/

/-- A step `s(i)` that sends `mac(input, k)`; the cell `c` stores its input. -/
def stepS : GStep Y := ⟨.s, [x0], .app .ok [], .app .mac [inp x0, mk]⟩
def cellC : GCell Y := ⟨0, [⟨stepS, [], inp x0, []⟩]⟩

def kindA : Y → Kind Y
  | .s => .step stepS
  | .msg => .mac .msg
  | .cond => .mac .cond
  | .input => .mac .input
  | .exec => .mac .exec
  | .c => .cell cellC
  | _ => .plain

abbrev LA : Lang Y := lang kindA

def graphA : PreGraph Y := ⟨⟨true, []⟩, ⟨false, []⟩, [(cellC, ⟨false, [cellC]⟩)]⟩

theorem builtA : Built kindA [stepS] [cellC] graphA := by
  refine ⟨100, 100, ⟨[(cellC, [])], 0, [⟨.message, .input⟩, ⟨.cell 0, .input⟩]⟩, rfl, rfl⟩

/-- The configuration of the main search of uf-cma. -/
def cfg (hmac : Bool) : SearchCfg Y := ⟨LA, [stepS], graphA, .ufMain LA .eq .mac .verify hmac, true, fun _ => some .sub, true, 10⟩
abbrev cfgA : SearchCfg Y := cfg false

/-- The candidate: the message is the cell at `s(x10)`, the pattern is `mac(x11, k)`. -/
def rootsA : List (Fm Y × List Var) := [(.app .c [tp ⟨10, .index⟩], [])]
def patA : Fm Y := .app .mac [.var ⟨11, .message⟩, mk]

def elemsA : List (Fm Y × UState Y) := visitAll cfgA 6 (rootsA.map (fun p => (p.1, ⟨.all, p.2, none⟩)))

theorem closedA (b : Bool) : closedB (cfg b) .all rootsA elemsA = true := by cases b <;> decide +kernel

theorem searchA (b : Bool) : ∃ res, search (cfg b) 100 patA .all rootsA = some res ∧ none ∉ res ∧ res ≠ [] := by
  cases b <;> refine ⟨_, rfl, ?_, ?_⟩ <;> decide +kernel

theorem protA : ProtOK LA [stepS] [cellC] := by
  have nI : ∀ v, NoQuant (inp v) := fun v => .app (by
    intro a ha; simp only [List.mem_singleton] at ha; subst ha
    exact .app (by intro a ha; simp only [List.mem_singleton] at ha; subst ha; exact .var _))
  have nK : NoQuant mk := .app (by
    intro a ha; simp only [List.mem_singleton] at ha; subst ha; exact .app (by intro a ha; cases ha))
  refine ⟨?_, ?_, ?_, ?_, ?_, ?_, ?_⟩
  · intro s hs
    simp only [List.mem_singleton] at hs; subst hs
    refine ⟨.app ?_, by simp [stepS, inp, tp, mk, nk, Fm.vars, Fm.varss, x0]⟩
    intro a ha
    simp only [List.mem_cons, List.not_mem_nil, or_false] at ha
    rcases ha with rfl | rfl
    · exact nI _
    · exact nK
  · intro s hs
    simp only [List.mem_singleton] at hs; subst hs
    exact ⟨.app (by intro a ha; cases ha), by simp [stepS, Fm.vars, Fm.varss]⟩
  · intro s hs
    simp only [List.mem_singleton] at hs; subst hs
    decide
  · intro c hc a ha
    simp only [List.mem_singleton] at hc; subst hc
    simp only [cellC, List.mem_singleton] at ha; subst ha
    exact ⟨nI _, by simp [stepS, inp, tp, Fm.vars, Fm.varss, x0]⟩
  · intro c hc a ha
    simp only [List.mem_singleton] at hc; subst hc
    simp only [cellC, List.mem_singleton] at ha; subst ha
    decide
  · intro f c h
    cases f <;> simp only [LA, lang, kindA, reduceCtorEq, Kind.cell.injEq] at h
    subst h; simp
  · intro f b fr cs h
    cases f <;> simp [LA, lang, kindA] at h

theorem clean_inp (v : Var) (cells : List (GCell Y)) : Clean kindA cells (inp v) := .input (g := Y.s) rfl rfl

theorem goodA : GoodProt kindA [stepS] [cellC] := by
  refine ⟨by decide, ?_, ?_⟩
  · intro s hs
    simp only [List.mem_singleton] at hs; subst hs
    refine ⟨.other (.inl rfl) (by intro a ha; cases ha), .other (.inl rfl) ?_⟩
    intro a ha
    simp only [List.mem_cons, List.not_mem_nil, or_false] at ha
    rcases ha with rfl | rfl
    · exact clean_inp _ _
    · exact .other (.inl rfl) (by
        intro a ha; simp only [List.mem_singleton] at ha; subst ha
        exact .other (.inl rfl) (by intro a ha; cases ha))
  · intro c hc a ha
    simp only [List.mem_singleton] at hc; subst hc
    simp only [cellC, List.mem_singleton] at ha; subst ha
    exact clean_inp _ _

theorem own_plain {s : GStep Y} {f : Y} {args : List (Fm Y)} (h : kindA f = .plain ∨ ∃ s', kindA f = .step s')
    (ha : ∀ a ∈ args, Own LA (some s) a) : Own LA (some s) (.app f args) := by
  have hk : ∀ K, LA.kind f = K → K = .plain ∨ ∃ s', K = .step s' := by rintro _ rfl; exact h
  refine .app ?_ ?_ ?_ nofun ?_ ha
  · intro e; rcases hk _ e with h | ⟨_, h⟩ <;> cases h
  · intro e; rcases hk _ e with h | ⟨_, h⟩ <;> cases h
  · intro _ _ _ e; rcases hk _ e with h | ⟨_, h⟩ <;> cases h
  · rintro _ _ (e | e | ⟨_, e⟩) <;> rcases hk _ e with h | ⟨_, h⟩ <;> cases h

theorem own_inp : Own LA (some stepS) (inp x0) := by
  refine .app nofun nofun nofun nofun ?_ ?_
  · intro s e _; cases e; rfl
  · intro a ha
    simp only [List.mem_singleton] at ha; subst ha
    exact own_plain (.inr ⟨_, rfl⟩) (by intro a ha; simp only [List.mem_singleton] at ha; subst ha; exact .var)

theorem ownA : OwnProt LA [stepS] [cellC] := by
  refine ⟨?_, ?_, ?_⟩
  · intro s hs
    simp only [List.mem_singleton] at hs; subst hs
    refine own_plain (.inl rfl) ?_
    intro a ha
    simp only [List.mem_cons, List.not_mem_nil, or_false] at ha
    rcases ha with rfl | rfl
    · exact own_inp
    · exact own_plain (.inl rfl) (by
        intro a ha; simp only [List.mem_singleton] at ha; subst ha
        exact own_plain (.inl rfl) (by intro a ha; cases ha))
  · intro s hs
    simp only [List.mem_singleton] at hs; subst hs
    exact own_plain (.inl rfl) (by intro a ha; cases ha)
  · intro c hc a ha
    simp only [List.mem_singleton] at hc; subst hc
    simp only [cellC, List.mem_singleton] at ha; subst ha
    exact own_inp

theorem mentions_tp (v : Var) (n : Node) : ¬ Mentions kindA (tp v) n := by
  intro h
  unfold tp at h
  cases h with
  | cell h => cases h
  | input h => cases h
  | taq h _ _ => cases h
  | arg ha hm => simp only [List.mem_singleton] at ha; subst ha; cases hm

theorem mentions_inp (v : Var) (n : Node) (h : Mentions kindA (inp v) n) : n = .input := by
  unfold inp at h
  cases h with
  | cell h => cases h
  | input h => rfl
  | msg h _ _ => cases h
  | cond h _ _ => cases h
  | taq h _ _ => cases h
  | arg ha hm => simp only [List.mem_singleton] at ha; subst ha; exact absurd hm (mentions_tp _ _)

theorem mentions_leaf {f : Y} (hf : kindA f = .plain) (n : Node) : ¬ Mentions kindA (.app f []) n := by
  intro h
  cases h with
  | cell h => rw [hf] at h; cases h
  | input h => rw [hf] at h; cases h
  | taq h _ _ => rw [hf] at h; cases h
  | arg ha hm => cases ha

theorem mentions_mk (n : Node) : ¬ Mentions kindA mk n := by
  intro h
  unfold mk at h
  cases h with
  | cell h => cases h
  | input h => cases h
  | msg h _ _ => cases h
  | cond h _ _ => cases h
  | taq h _ _ => cases h
  | arg ha hm => simp only [List.mem_singleton] at ha; subst ha; exact mentions_leaf rfl _ hm

theorem mentions_message (n : Node) (h : Mentions kindA stepS.message n) : n = .input := by
  unfold stepS at h
  cases h with
  | cell h => cases h
  | input h => cases h
  | taq h _ _ => cases h
  | arg ha hm =>
    simp only [List.mem_cons, List.not_mem_nil, or_false] at ha
    rcases ha with rfl | rfl
    · exact mentions_inp _ _ hm
    · exact absurd hm (mentions_mk _)

abbrev MA : Str Y (Tm Y) := freeStr LA ord rel

theorem unifA (b : Bool) : UnifOK (cfg b) MA (Builds LA rel) (fun t => ∃ st, Elem (cfg b) .all rootsA t st) patA := by
  have hE : ∀ t, (∃ st, Elem (cfg b) .all rootsA t st) → t ∈ elemsA.map Prod.fst := by
    rintro t ⟨st, h⟩
    exact List.mem_map.2 ⟨_, elem_of_closed (closedA _) h, rfl⟩
  refine ⟨freeStr_injectiveOn ord rel, over_of_b (b := fun f => !isLogic f) (builds kindA) _ (by decide), ?_, ?_, ?_⟩
  · intro t ht _
    refine over_of_b (b := fun f => !isLogic f) (builds kindA) _ ?_
    have : ∀ t ∈ elemsA.map Prod.fst, overB (fun f => !isLogic f) t = true := by decide +kernel
    exact this t (hE t ht)
  · intro t ht hu hm τ
    have : ∀ t ∈ elemsA.map Prod.fst, mgu 10 patA t = some none →
        (cfg b).A.unified (cfg b).L t = false ∨ ∃ f args, t = .app f args ∧ (!isLogic f) = true ∧ f ≠ .mac := by
      intro t h1 h3
      have key : ∀ t ∈ elemsA.map Prod.fst, (!((mgu 10 patA t).any Option.isNone) || !(cfg false).A.unified (cfg false).L t ||
        (match t with | .app f _ => (!isLogic f) && decide (f ≠ .mac) | _ => false)) = true := by decide +kernel
      have := key t h1
      simp only [h3, Option.any_some, Option.isNone_none, Bool.not_true, Bool.false_or, Bool.or_eq_true, Bool.not_eq_true'] at this
      rcases this with h | this
      · exact .inl h
      · split at this
        · exact .inr ⟨_, _, rfl, by simpa using this⟩
        · cases this
    have hm' := this t (hE t ht) hm
    rw [hu] at hm'
    simp only [Bool.true_eq_false, false_or] at hm'
    obtain ⟨f, args, rfl, h1, h2⟩ := hm'
    simp only [patA, eval]
    rw [freeStr_fn ord rel (builds kindA _ h1), freeStr_fn ord rel (builds kindA _ rfl)]
    intro e
    injection e with e1 e2
    exact h2 e1.symm
  · intro _ f e d
    simp only [cfg, Option.some.injEq] at e
    subst e
    exact (freeStr_rel ord rel (by simp [LA, lang]) rfl d d).2 rfl

/-- The values of the example: `x10` is 5, `x11` the input at `s(2)`. -/
def ρA : Valn (Tm Y) := fun i => if i = 10 then .atom 5 else if i = 11 then .node .input [.node .s [.atom 2]] else .atom 0
def at_ (n : Nat) : Valn (Tm Y) := fun _ => .atom n

theorem eval_mac (n : Nat) : eval MA (at_ n) stepS.message =
    .node .mac [.node .input [.node .s [.atom n]], .node .cast [.node .k []]] := by
  simp only [stepS, inp, tp, mk, nk, eval, evals]
  rw [freeStr_fn ord rel (builds kindA _ rfl), freeStr_fn ord rel (builds kindA _ rfl), freeStr_fn ord rel (builds kindA _ rfl),
    freeStr_fn ord rel (builds kindA _ rfl), freeStr_fn ord rel (builds kindA _ rfl)]
  rfl

theorem time_s (n : Nat) : stepS.time MA (at_ n) = .node .s [.atom n] := by
  simp only [GStep.time, stepS]
  rw [freeStr_fn ord rel (builds kindA _ rfl)]
  rfl

/-- In the cell at `s(5)` occurs what was stored at `s(3)`, that is the input there, in which occurs the message
of `s(2)`. -/
theorem occursA : Occurs LA [stepS] MA (MainPart .mac .verify) MacroRef.notExec (.app .c [tp ⟨10, .index⟩], ρA)
    (.app .mac [inp x0, mk], at_ 2) := by
  refine .tail (.tail .refl (.inr ⟨.cell cellC, .node .s [.atom 5], by simp [MacroRef.notExec], ?_, ?_⟩))
    (.inr ⟨.input, .node .s [.atom 3], by simp [MacroRef.notExec], ?_, ?_⟩) (b := (inp x0, at_ 3))
  · have : eval MA ρA (tp ⟨10, .index⟩) = .node .s [.atom 5] := by
      simp only [tp, eval, evals]; rw [freeStr_fn ord rel (builds kindA _ rfl)]; rfl
    rw [← this]
    exact .cell rfl rfl
  · refine .cell (a := ⟨stepS, [], inp x0, []⟩) (by simp [cellC]) (fun _ _ => trivial) (.inl ?_)
    rw [freeStr_lt ord rel (lang_distinct _)]
    exact ⟨3, 5, time_s 3, rfl, by omega⟩
  · have : eval MA (at_ 3) (tp x0) = .node .s [.atom 3] := by
      simp only [tp, eval, evals]; rw [freeStr_fn ord rel (builds kindA _ rfl)]; rfl
    rw [← this]
    exact .input rfl rfl
  · refine .inputMsg (s := stepS) (by simp) (fun _ _ => trivial) ?_
    rw [freeStr_lt ord rel (lang_distinct _)]
    exact ⟨2, 3, time_s 2, rfl, by omega⟩

/-- All the hypotheses of `C26_authenticated_partial` are met together, and the conclusion is not trivial. -/
theorem foundA : ∃ res, search cfgA 100 patA .all rootsA = some res ∧
    ∃ vs φ, some (vs, φ) ∈ res ∧ quantVal MA .ex vs (fun τ => MA.truth (eval MA τ φ)) ρA := by
  obtain ⟨res, h1, h2, _⟩ := searchA false
  refine ⟨res, h1, ?_⟩
  refine C26_authenticated_partial (cells := [cellC]) (outer := fun i => 10 ≤ i) .eq .mac .verify rfl
    (freeStr_sem ord rel (lang_distinct _)) ?_ protA goodA ownA ?_ (.inr ?_) builtA ?_ ⟨?_, ?_⟩ ?_ (unifA false) h1 h2
    (List.mem_singleton.2 rfl) (ρ := ρA) (ρ₀ := ρA) (fun _ _ => rfl) (fun _ h => by cases h) occursA (.inl rfl) ?_
  · intro a b c h1 h2
    exact (freeStr_lt ord rel (lang_distinct kindA) _ _).2 (ord_trans _ _ _ ((freeStr_lt ord rel (lang_distinct kindA) _ _).1 h1)
      ((freeStr_lt ord rel (lang_distinct kindA) _ _).1 h2))
  · intro c hc a ha n hn
    simp only [List.mem_singleton] at hc; subst hc
    simp only [cellC, List.mem_singleton] at ha; subst ha
    rw [mentions_inp _ _ hn]
    exact .input rfl
  · intro s hs x
    simp only [cfg, List.mem_singleton] at hs; subst hs
    exact ⟨fun h => (by cases mentions_message _ h), mentions_leaf rfl _⟩
  · intro t bv ht
    simp only [rootsA, List.mem_singleton, Prod.mk.injEq] at ht
    obtain ⟨rfl, rfl⟩ := ht
    refine ⟨.app ?_, ?_, by simp⟩
    · intro a ha; simp only [List.mem_singleton] at ha; subst ha
      exact .app (by intro a ha; simp only [List.mem_singleton] at ha; subst ha; exact .var _)
    · intro v hv
      simp only [tp, Fm.vars, Fm.varss, List.append_nil, List.mem_singleton] at hv
      subst hv; exact .inr (Nat.le_refl _)
  · intro t st he v hv
    have : ∀ p ∈ elemsA, ∀ v ∈ p.2.bound, v.id < 10 := by decide +kernel
    have := this _ (elem_of_closed (closedA _) he) v hv
    omega
  · intro f args st he hk
    have : ∀ p ∈ elemsA, (match p.1 with | .app f _ => decide (f ≠ .msg ∧ f ≠ .cond) | _ => true) = true := by decide +kernel
    have := this _ (elem_of_closed (closedA _) he)
    simp only [decide_eq_true_eq] at this
    cases f <;> simp [cfg, LA, lang, kindA] at hk this
  · intro v hv
    simp only [patA, mk, nk, Fm.vars, Fm.varss, List.append_nil, List.mem_singleton] at hv
    subst hv; simp
  · refine (show eval MA (at_ 2) (.app .mac [inp x0, mk]) = _ from eval_mac 2).trans ?_
    show _ = eval MA ρA patA
    simp only [patA, mk, nk, eval, evals]
    rw [freeStr_fn ord rel (builds kindA _ rfl), freeStr_fn ord rel (builds kindA _ rfl), freeStr_fn ord rel (builds kindA _ rfl)]
    rfl

/-- The same occurrence, for `hmac`. -/
theorem occursH : Occurs LA [stepS] MA (HmacSeen .eq .eq .mac .verify) MacroRef.notExec (.app .c [tp ⟨10, .index⟩], ρA)
    (.app .mac [inp x0, mk], at_ 2) := by
  refine .tail (.tail .refl (.inr ⟨.cell cellC, .node .s [.atom 5], by simp [MacroRef.notExec], ?_, ?_⟩))
    (.inr ⟨.input, .node .s [.atom 3], by simp [MacroRef.notExec], ?_, ?_⟩) (b := (inp x0, at_ 3))
  · have : eval MA ρA (tp ⟨10, .index⟩) = .node .s [.atom 5] := by
      simp only [tp, eval, evals]; rw [freeStr_fn ord rel (builds kindA _ rfl)]; rfl
    rw [← this]
    exact .cell rfl rfl
  · refine .cell (a := ⟨stepS, [], inp x0, []⟩) (by simp [cellC]) (fun _ _ => trivial) (.inl ?_)
    rw [freeStr_lt ord rel (lang_distinct _)]
    exact ⟨3, 5, time_s 3, rfl, by omega⟩
  · have : eval MA (at_ 3) (tp x0) = .node .s [.atom 3] := by
      simp only [tp, eval, evals]; rw [freeStr_fn ord rel (builds kindA _ rfl)]; rfl
    rw [← this]
    exact .input rfl rfl
  · refine .inputMsg (s := stepS) (by simp) (fun _ _ => trivial) ?_
    rw [freeStr_lt ord rel (lang_distinct _)]
    exact ⟨2, 3, time_s 2, rfl, by omega⟩

/-- All the hypotheses of `C26_authenticated_hmac_partial` are met together, and the conclusion is not trivial. -/
example : ∃ res, search (cfg true) 100 patA .all rootsA = some res ∧
    ∃ vs φ, some (vs, φ) ∈ res ∧ quantVal MA .ex vs (fun τ => MA.truth (eval MA τ φ)) ρA := by
  obtain ⟨res, h1, h2, _⟩ := searchA true
  refine ⟨res, h1, ?_⟩
  refine C26_authenticated_hmac_partial (cells := [cellC]) (outer := fun i => 10 ≤ i) .eq .mac .verify rfl
    (by decide) (by decide)
    (freeStr_sem ord rel (lang_distinct _)) ?_ protA goodA ownA ?_ (.inr ?_) builtA ?_ ⟨?_, ?_⟩ ?_ (unifA true) h1 h2
    (List.mem_singleton.2 rfl) (ρ := ρA) (ρ₀ := ρA) (fun _ _ => rfl) (fun _ h => by cases h) occursH (.inl rfl) ?_
  · intro a b c h1 h2
    exact (freeStr_lt ord rel (lang_distinct kindA) _ _).2 (ord_trans _ _ _ ((freeStr_lt ord rel (lang_distinct kindA) _ _).1 h1)
      ((freeStr_lt ord rel (lang_distinct kindA) _ _).1 h2))
  · intro c hc a ha n hn
    simp only [List.mem_singleton] at hc; subst hc
    simp only [cellC, List.mem_singleton] at ha; subst ha
    rw [mentions_inp _ _ hn]
    exact .input rfl
  · intro s hs x
    simp only [cfg, List.mem_singleton] at hs; subst hs
    exact ⟨fun h => (by cases mentions_message _ h), mentions_leaf rfl _⟩
  · intro t bv ht
    simp only [rootsA, List.mem_singleton, Prod.mk.injEq] at ht
    obtain ⟨rfl, rfl⟩ := ht
    refine ⟨.app ?_, ?_, by simp⟩
    · intro a ha; simp only [List.mem_singleton] at ha; subst ha
      exact .app (by intro a ha; simp only [List.mem_singleton] at ha; subst ha; exact .var _)
    · intro v hv
      simp only [tp, Fm.vars, Fm.varss, List.append_nil, List.mem_singleton] at hv
      subst hv; exact .inr (Nat.le_refl _)
  · intro t st he v hv
    have : ∀ p ∈ elemsA, ∀ v ∈ p.2.bound, v.id < 10 := by decide +kernel
    have := this _ (elem_of_closed (closedA _) he) v hv
    omega
  · intro f args st he hk
    have : ∀ p ∈ elemsA, (match p.1 with | .app f _ => decide (f ≠ .msg ∧ f ≠ .cond) | _ => true) = true := by decide +kernel
    have := this _ (elem_of_closed (closedA _) he)
    simp only [decide_eq_true_eq] at this
    cases f <;> simp [cfg, LA, lang, kindA] at hk this
  · intro v hv
    simp only [patA, mk, nk, Fm.vars, Fm.varss, List.append_nil, List.mem_singleton] at hv
    subst hv; simp
  · refine (show eval MA (at_ 2) (.app .mac [inp x0, mk]) = _ from eval_mac 2).trans ?_
    show _ = eval MA ρA patA
    simp only [patA, mk, nk, eval, evals]
    rw [freeStr_fn ord rel (builds kindA _ rfl), freeStr_fn ord rel (builds kindA _ rfl), freeStr_fn ord rel (builds kindA _ rfl)]
    rfl

/-! ### The keys of that protocol -/

def cfgK : SearchCfg Y := ⟨LA, [stepS], graphA, .ufKey .mac .verify .cast, true, fun _ => some .sub, false, 10⟩

def rootsK : List (Fm Y × List Var) := topLevel [stepS] [cellC]
def elemsK : List (Fm Y × UState Y) := visitAll cfgK 6 (rootsK.map (fun p => (p.1, ⟨.noRecMacro, p.2, none⟩)))

theorem closedK : closedB cfgK .noRecMacro rootsK elemsK = true := by decide +kernel
theorem searchK : search cfgK 100 nk .noRecMacro rootsK = some [] := by decide +kernel

theorem unifK : UnifOK cfgK MA (Builds LA rel) (fun t => ∃ st, Elem cfgK .noRecMacro rootsK t st) nk := by
  have hE : ∀ t, (∃ st, Elem cfgK .noRecMacro rootsK t st) → cfgK.A.unified cfgK.L t = true → False := by
    rintro t ⟨st, h⟩ hu
    have : ∀ p ∈ elemsK, cfgK.A.unified cfgK.L p.1 = false := by decide +kernel
    rw [this _ (elem_of_closed closedK h)] at hu
    cases hu
  refine ⟨freeStr_injectiveOn ord rel, over_of_b (b := fun f => !isLogic f) (builds kindA) _ (by decide), ?_, ?_, ?_⟩
  · intro t ht hu; exact (hE t ht hu).elim
  · intro t ht hu; exact (hE t ht hu).elim
  · intro _ f e d
    simp only [cfgK, Option.some.injEq] at e
    subst e
    exact (freeStr_rel ord rel (by simp [LA, lang]) rfl d d).2 rfl

/-- All the hypotheses of `C25_accepted_partial` are met: in no execution of the protocol does `k` occur in
what is sent, but as a key. -/
example (n : Nat) (f : Y) (args : List (Fm Y)) (κ : Valn (Tm Y)) (hf : MayBe LA f .name)
    (ho : Occurs LA [stepS] MA (KeyPart .mac .verify .cast) (fun _ => True) (stepS.message, at_ n) (.app f args, κ)) :
    eval MA κ (.app f args) ≠ .node .k [] := by
  have hk : eval MA (at_ n) nk = .node .k [] := by
    simp only [nk, eval, evals]; rw [freeStr_fn ord rel (builds kindA _ rfl)]
  rw [← hk]
  refine C25_accepted_partial (C := cfgK) (cells := [cellC]) (S := Builds LA rel) (outer := fun i => 10 ≤ i) .mac .verify .cast (by decide) rfl
    protA goodA (freeStr_sem ord rel (lang_distinct kindA)) builtA (roots := rootsK) (fun _ h => h) ?_ ⟨?_, ?_⟩ ?_ unifK searchK
    (r := stepS.message) (bv := [x0]) ?_ (fun _ _ => rfl) (fun _ _ => trivial) hf ho
  · intro t bv h
    have key : ∀ p ∈ rootsK, p.2 = [x0] ∧ p.1 ∈ [stepS.message, stepS.condition, inp x0] := by decide +kernel
    obtain ⟨h1, h2⟩ := key _ h
    simp only at h1 h2
    subst h1
    have h3 : NoQuant t ∧ ∀ v ∈ t.vars, v.id ∈ stepS.vars.map Var.id := by
      simp only [List.mem_cons, List.not_mem_nil, or_false] at h2
      rcases h2 with rfl | rfl | rfl
      · exact protA.message _ (List.mem_singleton.2 rfl)
      · exact protA.condition _ (List.mem_singleton.2 rfl)
      · exact protA.content cellC (List.mem_singleton.2 rfl) ⟨stepS, [], inp x0, []⟩ (by simp [cellC])
    exact ⟨h3.1, fun v hv => .inl (h3.2 v hv), by decide⟩
  · intro t st he v hv
    have : ∀ p ∈ elemsK, ∀ v ∈ p.2.bound, v.id < 10 := by decide +kernel
    have := this _ (elem_of_closed closedK he) v hv
    omega
  · intro f args st he hk
    have : ∀ p ∈ elemsK, (match p.1 with | .app f _ => decide (f ≠ .msg ∧ f ≠ .cond) | _ => true) = true := by decide +kernel
    have := this _ (elem_of_closed closedK he)
    simp only [decide_eq_true_eq] at this
    cases f <;> simp [cfgK, LA, lang, kindA] at hk this
  · intro v hv
    simp [nk, Fm.vars, Fm.varss] at hv
  · decide +kernel

end SEx
end Dep
end CV
