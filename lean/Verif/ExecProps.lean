import Verif.StdRun
/-
Property C11: unfolding of exec.
-/
namespace CV
set_option linter.unusedSimpArgs false
variable {D : Type}
open SFm Fm

section
variable {M : Str Sym D} {points : List D} {undef first : D}

/-- The (evaluated) condition of a time point is true. -/
def CondTrue (M : Str Sym D) (d : D) : Prop := M.truth (M.fn .evalCond [M.fn .cond [d]])
/-- The (evaluated) exec of a time point is true. -/
def ExecTrue (M : Str Sym D) (d : D) : Prop := M.truth (M.fn .evalCond [M.fn .exec [d]])
/-- The evaluated exec is a truth value. -/
def EvalIsProp (M : Str Sym D) : Prop := ∀ d, ∃ p : Prop, M.fn .evalCond [M.fn .exec [d]] = M.ofProp p

theorem evalCond_eq (hE : EvalIsProp M) (d : D) :
    M.fn .evalCond [M.fn .exec [d]] = M.ofProp (M.truth (M.fn .evalCond [M.fn .exec [d]])) := by
  obtain ⟨p, hp⟩ := hE d
  rw [hp, M.ofProp_inj, M.truth_ofProp]

theorem execRecursive_iff {p : Protocol} (hL : Logic M) (h : IsRun M p points undef first)
    (hE : EvalIsProp M) (hwf : ∀ s ∈ p.steps, s.WF) (ρ : Valn D) :
    (∀ ax ∈ execRecursive p, holds M ρ ax) ↔
      ∀ s ∈ p.stepsWithoutInit, ∀ as, InDoms M s.vars as → M.fn (.step s.fid) as ∈ points →
        (ExecTrue M (M.fn (.step s.fid) as) ↔ CondTrue M (M.fn (.step s.fid) as) ∧
          ExecTrue M (M.fn .pred [M.fn (.step s.fid) as])) := by
  simp only [execRecursive, List.mem_map, forall_exists_index, and_imp, forall_apply_eq_imp_iff₂,
    holds_forall, quantVal_all, hL.holds_imp]
  refine forall_congr' fun s => forall_congr' fun hs => forall_congr' fun as =>
    forall_congr' fun has => ?_
  have hsv : eval M (ρ.sets s.vars as) s.formula = M.fn (.step s.fid) as := by
    rw [Step.formula, eval_app_vars, Valn.sets_map _ _ _ (hwf s (List.mem_of_mem_tail hs)) has.length]
  rw [holds_happens h.toIsTrace, hL.holds_meq, hsv]
  simp only [SFm.evalC, SFm.ands, SFm.pred, eval, evals, hsv, hL.and]
  rw [evalCond_eq hE, M.ofProp_inj]
  simp [ExecTrue, CondTrue]

/-- **C11 (recursive option).** If the emitted exec axioms hold in a run, then exec of a happening
time point is true exactly when the conditions of all time points after init up to and including it
are true. -/
theorem C11_exec_recursive {p : Protocol} (hL : Logic M) (h : IsRun M p points undef first)
    (hE : EvalIsProp M) (hwf : ∀ s ∈ p.steps, s.WF) (ρ : Valn D) (l : List SFm)
    (hl : unfoldingGenerate true false p = some l) (hax : ∀ ax ∈ l, holds M ρ ax)
    (i : Nat) (d : D) (hd : points[i]? = some d) :
    ExecTrue M d ↔ ∀ j e, 1 ≤ j → j ≤ i → points[j]? = some e → CondTrue M e := by
  unfold unfoldingGenerate at hl
  cases hi : p.init with
  | none => rw [hi] at hl; simp at hl
  | some s0 =>
    rw [hi] at hl
    simp only [Option.map_some, Option.some.injEq] at hl
    subst hl
    obtain ⟨hiv, hif⟩ := h.init s0 hi
    have hexec0 : ExecTrue M first := by
      have := hax (evalC (.app .exec [s0.formula])) (by simp)
      simp only [holds, SFm.evalC, eval, evals, Step.formula, hiv, List.map_nil, hif] at this
      exact this
    have hrec := (execRecursive_iff hL h hE hwf ρ).1 (fun ax hx => hax ax (by simp [hx]))
    induction i generalizing d with
    | zero =>
      rw [h.head] at hd
      cases hd
      simp only [hexec0, true_iff]
      intro j e h1 h2; omega
    | succ i ih =>
      have hdm := IsTrace.mem_of_idx hd
      obtain ⟨s, hs, as, has, rfl⟩ := h.surj _ hdm
      have hs' : s ∈ p.stepsWithoutInit := by
        unfold Protocol.stepsWithoutInit
        unfold Protocol.init at hi
        cases hst : p.steps with
        | nil => rw [hst] at hi; simp at hi
        | cons x xs =>
          rw [hst] at hi hs
          simp only [List.head?_cons, Option.some.injEq] at hi
          subst hi
          rcases List.mem_cons.1 hs with rfl | hs
          · exfalso
            rw [hiv] at has
            cases as with
            | nil =>
              rw [hif] at hd
              have := h.idx_inj hd h.head
              omega
            | cons a as => exact has.elim
          · exact hs
      rw [hrec s hs' as has hdm]
      obtain ⟨hlt, _⟩ := List.getElem?_eq_some_iff.1 hd
      have hpi : points[i]? = some points[i] := List.getElem?_eq_getElem (by omega)
      have ihi := ih points[i] hpi
      rw [h.pred_succ i _ _ hpi hd, propext ihi]
      constructor
      · rintro ⟨h1, h2⟩ j e hj1 hj2 he
        rcases Nat.lt_or_eq_of_le hj2 with hlt | rfl
        · exact h2 j e hj1 (by omega) he
        · rw [hd] at he; cases he; exact h1
      · intro H
        exact ⟨H (i + 1) _ (by omega) (by omega) hd, fun j e hj1 hj2 he => H j e hj1 (by omega) he⟩

/-- **C11, converse.** If exec is read as "all conditions after init so far are true", the recursive
axioms hold in the run: they exclude no execution. -/
theorem C11_exec_recursive_sound {p : Protocol} (hL : Logic M) (h : IsRun M p points undef first)
    (hE : EvalIsProp M) (hwf : ∀ s ∈ p.steps, s.WF) (ρ : Valn D)
    (hnd : (p.steps.map Step.fid).Nodup)
    (hexec : ∀ i d, points[i]? = some d →
      (ExecTrue M d ↔ ∀ j e, 1 ≤ j → j ≤ i → points[j]? = some e → CondTrue M e)) :
    ∀ ax ∈ execRecursive p, holds M ρ ax := by
  rw [execRecursive_iff hL h hE hwf]
  intro s hs as has hm
  have hsm : s ∈ p.steps := List.mem_of_mem_tail hs
  obtain ⟨i, hi⟩ := IsTrace.idx_of_mem hm
  rcases h.toIsTrace.pred_cases hi with ⟨_, he, _⟩ | ⟨j, rfl, hj⟩
  · exfalso
    cases hst : p.steps with
    | nil => rw [hst] at hsm; simp at hsm
    | cons x xs =>
      have hx : p.init = some x := by simp [Protocol.init, hst]
      obtain ⟨hxv, hxf⟩ := h.init x hx
      have := h.inj s hsm x (by simp [hst]) as [] has (by rw [hxv]; trivial) hm (by rw [he, hxf])
      unfold Protocol.stepsWithoutInit at hs
      rw [hst] at hs hnd
      simp only [List.tail_cons, List.map_cons, List.nodup_cons] at hs hnd
      exact hnd.1 (this.1 ▸ List.mem_map_of_mem hs)
  · rw [hexec _ _ hi, hexec _ _ hj]
    constructor
    · intro H
      exact ⟨H (j + 1) _ (by omega) (by omega) hi, fun k e h1 h2 he => H k e h1 (by omega) he⟩
    · rintro ⟨h1, h2⟩ k e hk1 hk2 he
      rcases Nat.lt_or_eq_of_le hk2 with hlt | rfl
      · exact h2 k e hk1 (by omega) he
      · rw [hi] at he; cases he; exact h1

/-- **C11, the direct axiom is wrong.** What the emitted direct axiom says: exec of a happening
time point is just its *own* condition. -/
theorem C11_direct_meaning (hL : Logic M) (h : IsTrace M points undef first)
    (hE : EvalIsProp M) (ρ : Valn D) :
    holds M ρ execDirect ↔ ∀ d ∈ points, (ExecTrue M d ↔ CondTrue M d) := by
  simp only [execDirect, holds_forall, quantVal, hL.holds_imp, holds_happens h, hL.holds_meq]
  have hb : ∀ ρ' : Valn D, eval M ρ' (.mkForall [sv 2] (imp (SFm.leq (st 2) (st 1))
      (evalC (.app .cond [st 1])))) = M.ofProp (∀ d, M.dom .step d →
        (∃ i j : Nat, i ≤ j ∧ points[i]? = some d ∧ points[j]? = some (ρ' 1)) → CondTrue M (ρ' 1)) := by
    intro ρ'
    simp only [mkForall, List.isEmpty, eval, quantVal, M.ofProp_inj, sv, Bool.false_eq_true, if_false]
    refine forall_congr' fun d => imp_congr Iff.rfl ?_
    have := hL.holds_imp (ρ := ρ'.set 2 d) (a := SFm.leq (st 2) (st 1)) (b := evalC (.app .cond [st 1]))
    simp only [holds] at this
    rw [this]
    have h2 := holds_leq h (ρ := ρ'.set 2 d) (a := st 2) (b := st 1)
    simp only [holds] at h2
    rw [h2]
    simp [eval, evals, st, sv, Valn.set, SFm.evalC, CondTrue]
  simp only [hb]
  constructor
  · intro H d hd
    have := H d ((h.dom_step d).2 (Or.inl hd)) (by simpa [eval, st, sv, Valn.set] using hd)
    simp only [SFm.evalC, eval, evals, st, sv, Valn.set, if_true] at this
    rw [evalCond_eq hE, M.ofProp_inj] at this
    unfold ExecTrue
    rw [this]
    constructor
    · intro H'
      obtain ⟨i, hi⟩ := IsTrace.idx_of_mem hd
      exact H' d ((h.dom_step d).2 (Or.inl hd)) ⟨i, i, Nat.le_refl _, hi, hi⟩
    · intro hc _ _ _; exact hc
  · intro H d _ hd
    have hd : d ∈ points := by simpa [eval, st, sv, Valn.set] using hd
    simp only [SFm.evalC, eval, evals, st, sv, Valn.set, if_true]
    rw [evalCond_eq hE, M.ofProp_inj]
    have h1 := H d hd
    unfold ExecTrue at h1
    rw [h1]
    constructor
    · intro hc _ _ _; exact hc
    · intro H'
      obtain ⟨i, hi⟩ := IsTrace.idx_of_mem hd
      exact H' d ((h.dom_step d).2 (Or.inl hd)) ⟨i, i, Nat.le_refl _, hi, hi⟩

end

/-- The messages/exec of the example run: A(0)'s condition is false, all others true; exec is read as
specified (true up to the first false condition, i.e. at init only). -/
noncomputable def exRest : Sym → List V → V
  | .cond, [d] => .tt (d ≠ V.pt 1 [0])
  | .exec, [d] => .tt (d = V.pt 0 [])
  | .evalCond, [d] => .tt d.truth
  | .user 1, [d] => .tt (d ≠ V.idx 0)
  | _, _ => .undef

noncomputable abbrev exStr : Str Sym V := stdStr ((0, []) :: [(1, [0]), (1, [1])]) exRest

theorem exStr_evalIsProp : EvalIsProp exStr := fun _ => ⟨_, rfl⟩

theorem exStr_exec : ∀ (i : Nat) (d : V), (((0, []) :: [(1, [0]), (1, [1])]).map V.ofAct)[i]? = some d →
    (ExecTrue exStr d ↔ ∀ j e, 1 ≤ j → j ≤ i →
      (((0, []) :: [(1, [0]), (1, [1])]).map V.ofAct)[j]? = some e → CondTrue exStr e) := by
  have hc : ∀ d, CondTrue exStr d ↔ d ≠ V.pt 1 [0] := fun d => Iff.rfl
  have he : ∀ d, ExecTrue exStr d ↔ d = V.pt 0 [] := fun d => Iff.rfl
  intro i d hd
  rw [he]
  simp only [hc]
  match i, hd with
  | 0, hd =>
    simp [V.ofAct] at hd; subst hd
    simp only [true_iff]
    intro j e h1 h2; omega
  | 1, hd =>
    simp [V.ofAct] at hd; subst hd
    simp only [reduceCtorEq, V.pt.injEq, false_iff]
    simp only [Nat.one_ne_zero, false_and, false_iff]
    intro H
    exact H 1 _ (by omega) (by omega) rfl rfl
  | 2, hd =>
    simp [V.ofAct] at hd; subst hd
    simp only [V.pt.injEq, Nat.one_ne_zero, false_and, false_iff]
    intro H
    exact H 1 _ (by omega) (by omega) rfl rfl
  | i + 3, hd => simp at hd

/-- C11 non-vacuity: the example run meets the hypotheses of `C11_exec_recursive_sound`. -/
example (ρ : Valn V) : ∀ ax ∈ execRecursive exProto, holds exStr ρ ax :=
  C11_exec_recursive_sound (stdStr_logic _ _) (stdStr_run exSeq _) exStr_evalIsProp
    (by simp [exProto, exInit, exA, Step.WF]) ρ (by simp [exProto, exInit, exA]) exStr_exec

/-- C11 non-vacuity: in the example run all emitted unfolding axioms of the recursive option hold, so
`C11_exec_recursive` applies to it. -/
example (ρ : Valn V) (i : Nat) (d : V)
    (hd : (((0, []) :: [(1, [0]), (1, [1])]).map V.ofAct)[i]? = some d) :
    ExecTrue exStr d ↔ ∀ j e, 1 ≤ j → j ≤ i →
      (((0, []) :: [(1, [0]), (1, [1])]).map V.ofAct)[j]? = some e → CondTrue exStr e := by
  refine C11_exec_recursive (p := exProto) (stdStr_logic _ _) (stdStr_run exSeq _) exStr_evalIsProp
    (by simp [exProto, exInit, exA, Step.WF]) ρ _ rfl ?_ i d hd
  intro ax hax
  simp only [List.mem_append, List.mem_cons, List.not_mem_nil, or_false, if_true, Bool.not_true,
    Bool.or_self, Bool.false_eq_true, if_false] at hax
  rcases hax with (hax | rfl) | hax
  · have hL : Logic exStr := stdStr_logic _ _
    have hT : IsTrace exStr _ _ _ := (stdStr_run exSeq exRest).toIsTrace
    simp only [msgCondUnfold, exProto, List.map_cons, List.map_nil, List.mem_cons, List.not_mem_nil,
      or_false] at hax
    rcases hax with rfl | rfl
    · simp only [exInit, holds_forall, quantVal, hL.holds_imp, hL.holds_ands, hL.holds_meq,
        List.mem_cons, List.not_mem_nil, or_false, forall_eq_or_imp, forall_eq, Step.formula]
      intro _
      refine ⟨?_, rfl⟩
      show V.tt _ = V.tt _
      congr 1
      simp [eval, evals, stdStr_step, stdStr, exRest, V.truth, SFm.tru]
    · simp only [exA, holds_forall, quantVal, hL.holds_imp, hL.holds_ands, hL.holds_meq,
        List.mem_cons, List.not_mem_nil, or_false, forall_eq_or_imp, forall_eq, Step.formula]
      rintro _ ⟨n, rfl⟩ hh
      refine ⟨?_, rfl⟩
      rw [holds_happens hT] at hh
      show V.tt _ = V.tt _
      congr 1
      simp only [eval, evals, List.map_cons, List.map_nil, Valn.set_self, stdStr_step, V.toIdx] at hh ⊢
      by_cases h0 : (1, [n]) ∈ (0, []) :: [(1, [0]), (1, [1])]
      · rw [if_pos h0] at hh ⊢
        simp [stdStr, exRest, V.truth]
      · rw [if_neg h0] at hh
        exact absurd hh hT.undef_not
  · rfl
  · exact C11_exec_recursive_sound (p := exProto) (stdStr_logic _ _) (stdStr_run exSeq _)
      exStr_evalIsProp (by simp [exProto, exInit, exA, Step.WF]) ρ (by simp [exProto, exInit, exA])
      exStr_exec ax hax

/-- **C11 counterexample.** With the default options (no exec flag) the direct axiom is emitted; it
is false in a run where exec means "all conditions so far" (init, A(0) with false condition, A(1)
with a true one). -/
theorem C11_direct_counterexample : ∃ (p : Protocol) (l : List SFm) (M : Str Sym V)
    (points : List V) (u first : V), Logic M ∧ IsRun M p points u first ∧ EvalIsProp M ∧
    (∀ (i : Nat) (d : V), points[i]? = some d →
      (ExecTrue M d ↔ ∀ j e, 1 ≤ j → j ≤ i → points[j]? = some e → CondTrue M e)) ∧
    unfoldingGenerate false false p = some l ∧ ∃ ax ∈ l, ∀ ρ, ¬ holds M ρ ax := by
  refine ⟨exProto, _, exStr, _, _, _, stdStr_logic _ _, stdStr_run exSeq _, exStr_evalIsProp,
    exStr_exec, rfl, execDirect, by simp, ?_⟩
  intro ρ hh
  rw [C11_direct_meaning (stdStr_logic _ _) (stdStr_run exSeq _).toIsTrace exStr_evalIsProp] at hh
  have := hh (V.pt 1 [1]) (by simp [V.ofAct])
  have hc : CondTrue exStr (V.pt 1 [1]) ↔ V.pt 1 [1] ≠ V.pt 1 [0] := Iff.rfl
  have he : ExecTrue exStr (V.pt 1 [1]) ↔ V.pt 1 [1] = V.pt 0 [] := Iff.rfl
  rw [hc, he] at this
  simp at this

end CV
