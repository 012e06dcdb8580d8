import Verif.SearchEx
set_option linter.unusedSimpArgs false
/-
Protocols on which the search misses an occurrence, or does not end, and unfoldings that are not the
content they should be.
-/
namespace CV
namespace Dep
open Fm

/-- The full property C26 fails for this search: a value of the pattern occurs in a root, the search ends
without panic, and none of its results holds. -/
def Misses [DecidableEq F] (C : SearchCfg F) (part : Fm F → Fm F → Prop) (M : Str F D) (fl : Flags) (x : Fm F)
    (roots : List (Fm F × List Var)) : Prop :=
  ∃ (fuel : Nat) (res : List (Option (List Var × Fm F))) (r : Fm F) (ρ κ : Valn D) (f : F) (args : List (Fm F)),
    search C fuel x fl roots = some res ∧ none ∉ res ∧ (r, []) ∈ roots ∧
    Occurs C.L C.steps M part (fun _ => True) (r, ρ) (.app f args, κ) ∧ C.L.out f = some C.A.sort ∧
    eval M κ (.app f args) = eval M ρ x ∧
    ∀ vs φ, some (vs, φ) ∈ res → ¬ quantVal M .ex vs (fun τ => M.truth (eval M τ φ)) ρ

namespace SEx

theorem fn_node {kind : Y → Kind Y} {f : Y} (h : (!isLogic f) = true) (l : List (Tm Y)) :
    (freeStr (lang kind) ord rel).fn f l = .node f l := freeStr_fn ord rel (builds kind f h) l

theorem lt_iff {kind : Y → Kind Y} (a b : Tm Y) : Lt (lang kind) (freeStr (lang kind) ord rel) a b ↔ ord a b :=
  freeStr_lt ord rel (lang_distinct kind) a b

/-! ### (d) The numbers of the candidate are reused -/

/-- The candidate as the code numbers it: the protocol uses the variable 0, so the variable of the candidate
is 1 and that of the pattern 2. -/
def rootsD : List (Fm Y × List Var) := [(.app .c [tp x1], [])]
def patD : Fm Y := .app .mac [.var ⟨2, .message⟩, mk]

/-- The only result: the variable 1 of the candidate has been given to the second unfolding, and the formula
says that `s(x1)` is both after and strictly before `s(x0)`. -/
theorem searchD : search cfgA 100 patD .all rootsD = some [some ([x0, x1],
    .app .and [.app .eq [.var ⟨2, .message⟩, inp x1],
      .app .and [.app .or [.app .lt [tp x0, tp x1], .app .eq [tp x0, tp x1]], .app .lt [tp x1, tp x0]]])] := by
  decide +kernel

def ρD : Valn (Tm Y) := fun i => if i = 1 then .atom 5 else if i = 2 then .node .input [.node .s [.atom 2]] else .atom 0

theorem eval_tp (τ : Valn (Tm Y)) (v : Var) : eval MA τ (tp v) = .node .s [τ v.id] := by
  simp only [tp, eval, evals]; rw [fn_node rfl]

/-- **C26, counterexample.** The variables given to the content of the second macro that is unfolded can be
those of the candidate: what the candidate depends on is then missed. -/
theorem C26_clash_counterexample : Misses cfgA (MainPart .mac .verify) MA .all patD rootsD := by
  refine ⟨100, _, .app .c [tp x1], ρD, at_ 2, .mac, [inp x0, mk], searchD, by simp, by simp [rootsD], ?_, rfl, ?_, ?_⟩
  · refine .tail (.tail .refl (.inr ⟨.cell cellC, .node .s [.atom 5], trivial, ?_, ?_⟩))
      (.inr ⟨.input, .node .s [.atom 3], trivial, ?_, ?_⟩) (b := (inp x0, at_ 3))
    · rw [show Tm.node Y.s [.atom 5] = eval MA ρD (tp x1) from (eval_tp ρD x1).symm]
      exact .cell rfl rfl
    · refine .cell (a := ⟨stepS, [], inp x0, []⟩) (by simp [cellC]) (fun _ _ => trivial) (.inl ?_)
      exact (lt_iff _ _).2 ⟨3, 5, time_s 3, rfl, by omega⟩
    · rw [show Tm.node Y.s [.atom 3] = eval MA (at_ 3) (tp x0) from (eval_tp (at_ 3) x0).symm]
      exact .input rfl rfl
    · refine .inputMsg (s := stepS) (by simp [cfg]) (fun _ _ => trivial) ?_
      exact (lt_iff _ _).2 ⟨2, 3, time_s 2, rfl, by omega⟩
  · refine (eval_mac 2).trans ?_
    simp only [patD, mk, nk, eval, evals]
    rw [fn_node rfl, fn_node rfl, fn_node rfl]
    rfl
  · intro vs φ h
    simp only [List.mem_singleton, Option.some.injEq, Prod.mk.injEq] at h
    obtain ⟨rfl, rfl⟩ := h
    have hs := freeStr_sem ord rel (lang_distinct kindA)
    have key : ∀ τ : Valn (Tm Y), ¬ MA.truth (eval MA τ (.app .and [.app .eq [.var ⟨2, .message⟩, inp x1],
      .app .and [.app .or [.app .lt [tp x0, tp x1], .app .eq [tp x0, tp x1]], .app .lt [tp x1, tp x0]]])) := by
      intro τ h
      simp only [eval, evals] at h
      have h1 := (hs.and _).1 h _ (List.mem_cons_of_mem _ (List.mem_cons_self ..))
      have h2 := (hs.and _).1 h1 _ (List.mem_cons_self ..)
      have h3 := (hs.and _).1 h1 _ (List.mem_cons_of_mem _ (List.mem_cons_self ..))
      obtain ⟨i, j, e1, e2, hij⟩ := (lt_iff _ _).1 h3
      obtain ⟨d, hd, h4⟩ := (hs.or _).1 h2
      simp only [List.mem_cons, List.not_mem_nil, or_false] at hd
      rcases hd with rfl | rfl
      · obtain ⟨i', j', e3, e4, hij'⟩ := (lt_iff _ _).1 h4
        have a1 := e1.symm.trans e4
        have a2 := e2.symm.trans e3
        simp only [Tm.node.injEq, List.cons.injEq, Tm.atom.injEq, and_true, true_and] at a1 a2
        omega
      · have h5 := (hs.eq _ _).1 h4
        have a1 := e1.symm.trans (h5.symm.trans e2)
        simp only [Tm.node.injEq, List.cons.injEq, Tm.atom.injEq, and_true, true_and] at a1
        omega
    simp only [quantVal, not_exists, not_and]
    intro d1 _ d2 _
    exact key _

/-! ### (e) Cells read through inputs -/

/-- The step sends the cell `d`, which stores `mac(p, k)`; the cell `c` stores the input. -/
def stepE : GStep Y := ⟨.s, [x0], .app .ok [], .app .d [tp x0]⟩
def macP : Fm Y := .app .mac [.app .p [], mk]
def cellCE : GCell Y := ⟨0, [⟨stepE, [], inp x0, []⟩]⟩
def cellDE : GCell Y := ⟨1, [⟨stepE, [], macP, []⟩]⟩

def kindE : Y → Kind Y
  | .s => .step stepE
  | .msg => .mac .msg
  | .cond => .mac .cond
  | .input => .mac .input
  | .exec => .mac .exec
  | .c => .cell cellCE
  | .d => .cell cellDE
  | _ => .plain

abbrev LE : Lang Y := lang kindE
abbrev ME : Str Y (Tm Y) := freeStr LE ord rel

def graphE : PreGraph Y := ⟨⟨true, []⟩, ⟨false, []⟩, [(cellCE, ⟨false, [cellCE]⟩), (cellDE, ⟨false, [cellDE]⟩)]⟩

theorem builtE : Built kindE [stepE] [cellCE, cellDE] graphE :=
  ⟨100, 100, ⟨[(cellCE, []), (cellDE, [])], 1, [⟨.message, .cell 1⟩, ⟨.cell 0, .input⟩]⟩, rfl, rfl⟩

def cfgE : SearchCfg Y := ⟨LE, [stepE], graphE, .ufMain LE .eq .mac .verify false, true, fun _ => some .sub, true, 10⟩

theorem searchE : search cfgE 100 patA .all rootsA = some [] := by decide +kernel

/-- `x10` is 5 and `x11` is `p`. -/
def ρE : Valn (Tm Y) := fun i => if i = 10 then .atom 5 else .node .p []

theorem eval_macP {kind : Y → Kind Y} (τ : Valn (Tm Y)) : eval (freeStr (lang kind) ord rel) τ macP =
    .node .mac [.node .p [], .node .cast [.node .k []]] := by
  simp only [macP, mk, nk, eval, evals]
  rw [fn_node rfl, fn_node rfl, fn_node rfl, fn_node rfl]

theorem eval_patA {kind : Y → Kind Y} : eval (freeStr (lang kind) ord rel) ρE patA =
    .node .mac [.node .p [], .node .cast [.node .k []]] := by
  simp only [patA, mk, nk, eval, evals]
  rw [fn_node rfl, fn_node rfl, fn_node rfl]
  rfl

theorem eval_tp' {kind : Y → Kind Y} (τ : Valn (Tm Y)) (v : Var) : eval (freeStr (lang kind) ord rel) τ (tp v) = .node .s [τ v.id] := by
  simp only [tp, eval, evals]; rw [fn_node rfl]

theorem time_s' {kind : Y → Kind Y} (s : GStep Y) (h1 : s.fn = .s) (h2 : s.vars = [x0]) (n : Nat) :
    s.time (freeStr (lang kind) ord rel) (at_ n) = .node .s [.atom n] := by
  simp only [GStep.time, h1, h2]
  rw [fn_node rfl]
  rfl

/-- **C26, counterexample.** Unfolding a cell turns off the unfolding of cells below it: the `mac` stored in
the cell `d`, sent by an earlier step and so part of the input that the cell `c` stores, is missed. -/
theorem C26_cell_counterexample : Misses cfgE (MainPart .mac .verify) ME .all patA rootsA := by
  refine ⟨100, [], .app .c [tp ⟨10, .index⟩], ρE, at_ 1, .mac, [.app .p [], mk], searchE, by simp, by simp [rootsA], ?_, rfl,
    (eval_macP _).trans eval_patA.symm, by simp⟩
  refine .tail (.tail (.tail .refl (.inr ⟨.cell cellCE, .node .s [.atom 5], trivial, ?_, ?_⟩))
    (.inr ⟨.input, .node .s [.atom 3], trivial, ?_, ?_⟩) (b := (inp x0, at_ 3)))
    (.inr ⟨.cell cellDE, .node .s [.atom 2], trivial, ?_, ?_⟩) (b := (stepE.message, at_ 2))
  · rw [show Tm.node Y.s [.atom 5] = eval ME ρE (tp ⟨10, .index⟩) from (eval_tp' ρE ⟨10, .index⟩).symm]
    exact .cell rfl rfl
  · refine .cell (a := ⟨stepE, [], inp x0, []⟩) (by simp [cellCE]) (fun _ _ => trivial) (.inl ?_)
    exact (lt_iff _ _).2 ⟨3, 5, time_s' stepE rfl rfl 3, rfl, by omega⟩
  · rw [show Tm.node Y.s [.atom 3] = eval ME (at_ 3) (tp x0) from (eval_tp' (at_ 3) x0).symm]
    exact .input rfl rfl
  · refine .inputMsg (s := stepE) (by simp [cfgE]) (fun _ _ => trivial) ?_
    exact (lt_iff _ _).2 ⟨2, 3, time_s' stepE rfl rfl 2, rfl, by omega⟩
  · rw [show Tm.node Y.s [.atom 2] = eval ME (at_ 2) (tp x0) from (eval_tp' (at_ 2) x0).symm]
    exact .cell rfl rfl
  · refine .cell (a := ⟨stepE, [], macP, []⟩) (by simp [cellDE]) (fun _ _ => trivial) (.inl ?_)
    exact (lt_iff _ _).2 ⟨1, 2, time_s' stepE rfl rfl 1, rfl, by omega⟩

/-! ### (f) `exec` -/

/-- The condition of the step uses `mac(p, k)`. -/
def stepX : GStep Y := ⟨.s, [x0], .app .ok [macP], .app .p []⟩

def kindX : Y → Kind Y
  | .s => .step stepX
  | .msg => .mac .msg
  | .cond => .mac .cond
  | .input => .mac .input
  | .exec => .mac .exec
  | _ => .plain

abbrev LX : Lang Y := lang kindX
abbrev MX : Str Y (Tm Y) := freeStr LX ord rel

def graphX : PreGraph Y := ⟨⟨true, []⟩, ⟨false, []⟩, []⟩

theorem builtX : Built kindX [stepX] [] graphX := ⟨100, 100, ⟨[], 0, []⟩, rfl, rfl⟩

def cfgX : SearchCfg Y := ⟨LX, [stepX], graphX, .ufMain LX .eq .mac .verify false, true, fun _ => some .sub, true, 10⟩

def rootsX : List (Fm Y × List Var) := [(.app .exec [tp ⟨10, .index⟩], [])]

theorem searchX : search cfgX 100 patA .all rootsX = some [] := by decide +kernel

/-- **C26, counterexample.** `exec` at a time point is not unfolded to the conditions it stands for. -/
theorem C26_exec_counterexample : Misses cfgX (MainPart .mac .verify) MX .all patA rootsX := by
  refine ⟨100, [], .app .exec [tp ⟨10, .index⟩], ρE, at_ 3, .mac, [.app .p [], mk], searchX, by simp, by simp [rootsX], ?_, rfl,
    (eval_macP _).trans eval_patA.symm, by simp⟩
  refine .tail (.tail .refl (.inr ⟨.exec, .node .s [.atom 5], trivial, ?_, ?_⟩)) (b := (stepX.condition, at_ 3))
    (.inl (.inl (.part (.other (by decide) (by simp [macP])))))
  · rw [show Tm.node Y.s [.atom 5] = eval MX ρE (tp ⟨10, .index⟩) from (eval_tp' ρE ⟨10, .index⟩).symm]
    exact .exec rfl rfl
  · refine .exec (s := stepX) (by simp [cfgX]) (fun _ _ => trivial) (.inl ?_)
    exact (lt_iff _ _).2 ⟨3, 5, time_s' stepX rfl rfl 3, rfl, by omega⟩

/-! ### (h) Equalities with an hmac -/

def cfgH : SearchCfg Y := ⟨LX, [stepX], graphX, .ufMain LX .eq .mac .verify true, true, fun _ => some .sub, true, 10⟩

/-- `mac(k, k) = g(mac(p, k))`. -/
def rootsH : List (Fm Y × List Var) := [(.app .eq [.app .mac [mk, mk], .app .g [macP]], [])]

theorem searchH : search cfgH 100 patA .all rootsH = some [] := by decide +kernel

/-- **C26, counterexample.** With `hmac`, the side of an equality that is not itself a `mac` is not searched
when the other is one. -/
theorem C26_hmac_counterexample : Misses cfgH (HmacPart .eq .eq .mac .verify) MX .all patA rootsH := by
  refine ⟨100, [], _, ρE, ρE, .mac, [.app .p [], mk], searchH, by simp, List.mem_singleton.2 rfl, ?_, rfl,
    (eval_macP _).trans eval_patA.symm, by simp⟩
  refine .tail (.tail .refl (.inl (.inl (.part (.side (.inl rfl) (.inr rfl) (by decide))))))
    (.inl (.inl (.part (.main (by decide) (by decide) (.other (by decide) (by simp [macP]))))))

/-! ### C30 -/

/-- **C30, counterexample.** When the parameter of the step is a variable of the surrounding formula, the message
given for `msg(o)` is the one for that variable, not for the one the condition speaks of. -/
theorem C30_step_macro_counterexample : ∃ (st st' : UState Y) (o t' : Fm Y) (τ : Valn (Tm Y)),
    unfold LA [stepS] graphA (.app .msg [o]) st = some [(t', st')] ∧
    (∀ g, st'.guard = some g → MA.truth (eval MA τ g)) ∧
    ∀ σ, stepS.time MA σ = eval MA τ o → eval MA σ stepS.message ≠ eval MA τ t' := by
  refine ⟨⟨.all, [x0, ⟨5, .index⟩], none⟩, ⟨.all, [x0, ⟨5, .index⟩, ⟨6, .index⟩], some (.app .eq [tp ⟨5, .index⟩, tp ⟨6, .index⟩])⟩,
    tp ⟨5, .index⟩, stepS.message, fun i => if i = 0 then .atom 0 else .atom 1, by decide +kernel, ?_, ?_⟩
  · intro g hg
    simp only [Option.some.injEq] at hg
    subst hg
    have hs := freeStr_sem ord rel (lang_distinct kindA)
    simp only [eval, evals]
    exact (hs.eq _ _).2 (by rw [eval_tp, eval_tp]; rfl)
  · intro σ h1 h2
    rw [eval_tp] at h1
    simp only [GStep.time, stepS] at h1
    rw [fn_node rfl] at h1
    simp only [stepS, inp, tp, mk, nk, eval, evals] at h2
    rw [fn_node rfl, fn_node rfl, fn_node rfl, fn_node rfl, fn_node rfl, fn_node rfl, fn_node rfl, fn_node rfl] at h2
    simp only [List.map_cons, List.map_nil, x0, Tm.node.injEq, List.cons.injEq, and_true, true_and] at h1 h2
    rw [h1] at h2
    simp at h2

/-- A step `s` and a step `s2` whose message calls the message of `s`. -/
def stepM1 : GStep Y := ⟨.s, [], .app .ok [], .app .p []⟩
def stepM2 : GStep Y := ⟨.s2, [], .app .ok [], .app .g [.app .msg [.app .s []]]⟩

def kindM : Y → Kind Y
  | .s => .step stepM1
  | .s2 => .step stepM2
  | .msg => .mac .msg
  | .cond => .mac .cond
  | .input => .mac .input
  | .exec => .mac .exec
  | _ => .plain

def cfgM : SearchCfg Y :=
  ⟨lang kindM, [stepM1, stepM2], graphX, .ufMain (lang kindM) .eq .mac .verify false, true, fun _ => some .sub, true, 10⟩

theorem builtM : Built kindM [stepM1, stepM2] [] graphX := ⟨100, 100, ⟨[], 0, []⟩, rfl, rfl⟩

/-- **C30, counterexample.** The message of a time point is unfolded to the messages of all steps, again and
again: a search in a message that calls the message of another step never ends. -/
theorem C30_msg_diverges (fuel : Nat) (x : Fm Y) : search cfgM fuel x .all [(stepM2.message, [])] = none := by
  have hs : search cfgM fuel x .all [(stepM2.message, [])] =
    runPile (searchIter cfgM x) fuel () [.next stepM2.message ⟨.all, [], none⟩] := rfl
  rw [hs]
  refine runPile_diverges (searchIter cfgM x) (fun f st => (f = stepM2.message ∨ f = .app .msg [.app .s []]) ∧
    st.flags.stepMac = true ∧ st.bound = []) ?_ fuel _ _ ⟨.inl rfl, rfl, rfl⟩
  rintro f st ⟨rfl | rfl, h1, h2⟩
  · exact ⟨.app .msg [.app .s []], st, by simp [searchIter, searchVisit, cfgM, Aux.ufMain, stepM2], .inr rfl, h1, h2⟩
  · obtain ⟨fl, b, g⟩ := st
    simp only at h1 h2
    subst h2
    cases g with
    | none =>
      refine ⟨stepM2.message, ⟨fl, [], some (.app .eq [.app .s [], .app .s2 []])⟩, ?_, .inl rfl, h1, rfl⟩
      · simp only [searchIter, searchVisit, List.append_assoc, List.mem_append]
        refine .inl ?_
        simp [unfold, cfgM, lang, kindM, h1, unfoldStepMacro, UState.addCondition, UState.addVariables, stepM1, stepM2, Lang.meq]
    | some g =>
      refine ⟨stepM2.message, ⟨fl, [], some (.app .and [g, .app .eq [.app .s [], .app .s2 []]])⟩, ?_, .inl rfl, h1, rfl⟩
      · simp only [searchIter, searchVisit, List.append_assoc, List.mem_append]
        refine .inl ?_
        simp [unfold, cfgM, lang, kindM, h1, unfoldStepMacro, UState.addCondition, UState.addVariables, stepM1, stepM2, Lang.meq,
          Lang.ands]

/-- A quantifier symbol `q(x0)` that stands for `exists x1. p(x0, x1)`. -/
def kindQ : Y → Kind Y
  | .q => .taq [x1] [x0] [.app .p [.var x0, .var x1]]
  | _ => .plain

/-- **C30, counterexample.** When an argument has a variable with the number of a bound one that the
surrounding formula does not bind, it is captured: `q(x1)` is unfolded to `p(x1, x1)`, of which `p(0, 1)`, an
instance of the body of `q(0)`, is not an instance. -/
theorem C30_quantifier_counterexample :
    unfold (lang kindQ) [] graphX (.app .q [.var x1]) ⟨.all, [], none⟩ = some [(.app .p [.var x1, .var x1], ⟨.all, [x1], none⟩)] ∧
    ∃ τ σ : Valn (Tm Y), σ 0 = eval (freeStr (lang kindQ) ord rel) τ (.var x1) ∧
      ∀ τ' : Valn (Tm Y), eval (freeStr (lang kindQ) ord rel) σ (.app .p [.var x0, .var x1]) ≠
        eval (freeStr (lang kindQ) ord rel) τ' (.app .p [.var x1, .var x1]) := by
  refine ⟨by decide +kernel, at_ 0, fun i => .atom i, rfl, ?_⟩
  intro τ' h
  simp only [eval, evals] at h
  rw [fn_node rfl, fn_node rfl] at h
  simp only [Tm.node.injEq, List.cons.injEq, and_true, true_and, x0, x1] at h
  have := h.1.trans h.2.symm
  simp at this

/-- **C30, counterexample.** `exec` at a time point is unfolded to nothing although it depends on the conditions
of the steps until then, when no condition reads an input or a cell. -/
theorem C30_exec_counterexample (o : Fm Y) : unfold LX [stepX] graphX (.app .exec [o]) ⟨.all, [], none⟩ = some [] := rfl

/-! ### The hypotheses of the C30 theorems are met -/

example : ∃ l, unfold LA [stepS] graphA (inp ⟨5, .index⟩) ⟨.all, [x0], none⟩ = some l ∧ l.length = 2 := by
  obtain ⟨l, h1, h2⟩ := C30_input LA [stepS] graphA rfl rfl (by simp [stepS]) .input rfl [tp ⟨5, .index⟩] (tp ⟨5, .index⟩) rfl
    ⟨.all, [x0], none⟩ (by simp) rfl
  refine ⟨_, h1, ?_⟩
  have := h2.length_eq
  cases l with
  | nil => simp at this
  | cons p l =>
    simp only [List.length_cons, List.length_nil, Nat.zero_add, Nat.add_eq_right] at this
    obtain rfl : l = [] := by cases l <;> simp_all
    rfl

example : ∃ l, unfold LA [stepS] graphA (.app .c [tp ⟨5, .index⟩]) ⟨.all, [x0], none⟩ = some l ∧ l.length = 1 := by
  obtain ⟨l, h1, h2⟩ := C30_cell LA [stepS] graphA cellC ⟨false, [cellC]⟩ rfl rfl (by simp [cellC, stepS, x0]) .c rfl
    [tp ⟨5, .index⟩] (tp ⟨5, .index⟩) rfl ⟨.all, [x0], none⟩ (by simp) rfl
  exact ⟨l, h1, h2.length_eq.symm⟩

example : ∃ l, unfold LA [stepS] graphA (.app .msg [tp ⟨5, .index⟩]) ⟨.all, [⟨5, .index⟩], none⟩ = some l ∧ l.length = 1 := by
  obtain ⟨l, h1, h2⟩ := C30_step_macro_partial LA [stepS] graphA true (by simp [stepS]) .msg rfl (tp ⟨5, .index⟩)
    ⟨.all, [⟨5, .index⟩], none⟩ (by simp) rfl (by simp [stepS, x0])
  exact ⟨l, h1, h2.length_eq.symm⟩

example : ∃ (st' : UState Y) (g : Fm Y → Fm Y), unfold (lang kindQ) [] graphX (.app .q [.var x1]) ⟨.all, [x1], none⟩ =
    some ([Fm.app Y.p [.var x0, .var x1]].map (fun c => (g c, st'))) := by
  obtain ⟨st', g, _, h, _⟩ := C30_quantifier_partial (lang kindQ) [] graphX .q [x1] [x0] [.app .p [.var x0, .var x1]] rfl (by decide)
    (by
      intro c hc; simp only [List.mem_singleton] at hc; subst hc
      refine ⟨.app ?_, by decide⟩
      intro a ha; simp only [List.mem_cons, List.not_mem_nil, or_false] at ha
      rcases ha with rfl | rfl <;> exact .var _)
    [.var x1] rfl ⟨.all, [x1], none⟩ (by intro a ha v hv; simp at ha; subst ha; simp only [Fm.vars, List.mem_singleton] at hv; subst hv; simp) (by simp) rfl
  exact ⟨st', g, h⟩

example : ∃ k l, unfold LA [stepS] ⟨⟨true, []⟩, ⟨true, [cellC]⟩, []⟩ (.app .exec [tp ⟨5, .index⟩]) ⟨.all, [x0], none⟩ =
    some (k ++ l) ∧ k.length = 1 := by
  obtain ⟨k, l, h1, h2, _⟩ := C30_exec LA [stepS] ⟨⟨true, []⟩, ⟨true, [cellC]⟩, []⟩ rfl (by simp [stepS]) (by simp [cellC, stepS, x0])
    .exec rfl [tp ⟨5, .index⟩] (tp ⟨5, .index⟩) rfl ⟨.all, [x0], none⟩ (by simp) rfl
  exact ⟨k, _, h1, h2.length_eq.symm⟩

end SEx
end Dep
end CV
