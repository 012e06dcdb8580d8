import Verif.ExecProps
/-
More on C08 (the order axioms are strong enough) and C49 (message/condition unfolding).
-/
namespace CV
set_option linter.unusedSimpArgs false
variable {D : Type}
open SFm Fm

/-- `init` is the least element, and `pred` the immediate predecessor function, of the linear order
`le` on the set `H`; everything outside `H` is one single point. -/
structure LinearTime (S H : D → Prop) (le lt : D → D → Prop) (pred : D → D) (init : D) : Prop where
  refl : ∀ a, S a → H a → le a a
  trans : ∀ a b c, S a → S b → S c → le a b → le b c → le a c
  antisymm : ∀ a b, S a → S b → le a b → le b a → a = b
  total : ∀ a b, S a → S b → H a → H b → le a b ∨ le b a
  only : ∀ a b, S a → S b → le a b → H a ∧ H b
  strict : ∀ a b, S a → S b → (lt a b ↔ le a b ∧ a ≠ b)
  init_happens : H init
  least : ∀ a, S a → H a → le init a
  pred_happens : ∀ a, S a → H a → a ≠ init → H (pred a)
  pred_lt : ∀ a, S a → H a → a ≠ init → lt (pred a) a
  pred_adjacent : ∀ a b, S a → S b → H a → a ≠ init → lt (pred a) b → le a b
  one_undefined : ∀ a b, S a → S b → ¬ H a → ¬ H b → a = b

/-- **C08, the axioms are strong enough.** In *every* interpretation of the time symbols (not only
those given by an execution) that satisfies the emitted axioms, the happening time points are
linearly ordered with init first and `pred` is the immediate predecessor. -/
theorem C08_adequate {M : Str Sym D} (hL : Logic M) (init : SFm) (i0 : D)
    (hinit : ∀ ρ, eval M ρ init = i0)
    (hpred : ∀ d, M.dom .step d → M.dom .step (M.fn .pred [d])) (ρ : Valn D)
    (hax : ∀ ax ∈ orderAxioms init, holds M ρ ax) :
    LinearTime (M.dom .step) (fun d => M.truth (M.fn .happens [d]))
      (fun a b => M.truth (M.fn .leq [a, b])) (fun a b => M.truth (M.fn .lt [a, b]))
      (fun d => M.fn .pred [d]) i0 := by
  have eh : ∀ (ρ : Valn D) (t : SFm), holds M ρ (SFm.happens t) ↔
      M.truth (M.fn .happens [eval M ρ t]) := by
    intro ρ t; simp [holds, SFm.happens, eval, evals]
  have el : ∀ (ρ : Valn D) (a b : SFm), holds M ρ (SFm.leq a b) ↔
      M.truth (M.fn .leq [eval M ρ a, eval M ρ b]) := by
    intro ρ a b; simp [holds, SFm.leq, eval, evals]
  simp only [orderAxioms, List.mem_cons, List.not_mem_nil, or_false, forall_eq_or_imp, forall_eq,
    holds_forall, quantVal, hL.holds_imp, hL.holds_ors, hL.holds_ands, hL.holds_not,
      hL.holds_meq, eh, el, eval_pred,
      exists_eq_or_imp, exists_eq_left, hinit, st, sv, eval,
      Valn.set, if_true, reduceIte, Nat.reduceEqDiff,
      reduceCtorEq, ↓reduceIte, Nat.one_ne_zero, Nat.zero_ne_one] at hax
  obtain ⟨a1, a2, a3, a4, a5, a6, a7, a8, a9, a10, a11, a12⟩ := hax
  have a1' : ∀ a b, M.dom .step a → M.dom .step b →
      (M.truth (M.fn .lt [a, b]) ↔ M.truth (M.fn .leq [a, b]) ∧ a ≠ b) := by
    intro a b ha hb
    have := a1 a ha b hb
    simp only [SFm.ands, SFm.mnot, SFm.leq, SFm.lt, SFm.meq, eval, evals, hL.and, hL.not, hL.eq,
      List.mem_cons, List.not_mem_nil, or_false, forall_eq_or_imp,
      forall_eq, M.truth_ofProp, Valn.set, if_true, reduceIte, Nat.reduceEqDiff,
      reduceCtorEq] at this
    rw [← this, M.truth_ofProp]
  have a8' : ∀ a b, M.dom .step a → M.dom .step b →
      ((M.truth (M.fn .happens [a]) ∧ M.truth (M.fn .happens [b])) ↔
        (M.truth (M.fn .leq [a, b]) ∨ M.truth (M.fn .leq [b, a]))) := by
    intro a b ha hb
    have := a8 a ha b hb
    simp only [SFm.ands, SFm.ors, SFm.leq, SFm.happens, eval, evals, hL.and, hL.or,
      M.ofProp_inj, List.mem_cons, List.not_mem_nil, or_false, forall_eq_or_imp, exists_eq_or_imp,
      exists_eq_left,
      forall_eq, M.truth_ofProp, st, sv, Valn.set, if_true, reduceIte, Nat.reduceEqDiff,
      reduceCtorEq] at this
    exact this
  have hp : ∀ a, M.dom .step a → M.truth (M.fn .happens [a]) → a ≠ i0 →
      M.truth (M.fn .happens [M.fn .pred [a]]) := fun a ha hh hne => (a4 a ha hh).resolve_left hne
  refine ⟨?_, ?_, ?_, ?_, ?_, a1', a2, a3, hp, ?_, ?_, ?_⟩
  · intro a ha h; exact ((a8' a a ha ha).1 ⟨h, h⟩).elim id id
  · intro a b c ha hb hc h1 h2; exact a6 a ha b hb c hc ⟨h1, h2⟩
  · intro a b ha hb h1 h2; exact a7 a ha b hb ⟨h1, h2⟩
  · intro a b ha hb h1 h2; exact (a8' a b ha hb).1 ⟨h1, h2⟩
  · intro a b ha hb h; exact (a8' a b ha hb).2 (Or.inl h)
  · intro a ha h hne
    exact (a1' _ _ (hpred a ha) ha).2 ⟨a9 a ha (hp a ha h hne), a10 a ha h⟩
  · intro a b ha hb h hne hlt
    obtain ⟨h1, h2⟩ := (a1' _ _ (hpred a ha) hb).1 hlt
    have hhb := ((a8' _ _ (hpred a ha) hb).2 (Or.inl h1)).2
    rcases a12 a ha b hb ⟨hp a ha h hne, hhb⟩ with h3 | h3
    · exact absurd (a7 _ (hpred a ha) _ hb ⟨h1, h3⟩) h2
    · exact h3
  · intro a b ha hb h1 h2
    rcases a5 a ha b hb with (h | h) | h
    · exact absurd h h1
    · exact absurd h h2
    · exact h

/-- Non-vacuity: the structure of the example execution meets the hypotheses. -/
example (ρ : Valn V) : LinearTime (exStr.dom .step) (fun d => exStr.truth (exStr.fn .happens [d]))
      (fun a b => exStr.truth (exStr.fn .leq [a, b])) (fun a b => exStr.truth (exStr.fn .lt [a, b]))
      (fun d => exStr.fn .pred [d]) (V.pt 0 []) := by
  have hi : ∀ ρ, eval exStr ρ exInit.formula = V.pt 0 [] := fun ρ => rfl
  have hT := (stdStr_run exSeq exRest).toIsTrace
  refine C08_adequate (stdStr_logic _ _) exInit.formula _ hi ?_ ρ
    (C08_order_axioms_partial (stdStr_logic _ _) hT _ hi ρ)
  intro d hd
  rcases hd with hd | rfl
  · obtain ⟨i, hi⟩ := IsTrace.idx_of_mem hd
    rcases hT.pred_cases hi with ⟨_, _, h⟩ | ⟨j, _, hj⟩
    · exact Or.inr h
    · exact Or.inl (IsTrace.mem_of_idx hj)
  · exact Or.inr hT.pred_undef

/-- **C49.** The emitted unfolding axioms hold exactly when, for every happening instance of every
step, the condition and message macros evaluate to the declared condition and message of that step
read with the instance's indices. -/
theorem C49_msg_cond {M : Str Sym D} {points : List D} {undef first : D} {p : Protocol}
    (hL : Logic M) (h : IsTrace M points undef first) (hwf : ∀ s ∈ p.steps, s.WF) (ρ : Valn D) :
    (∀ ax ∈ msgCondUnfold p, holds M ρ ax) ↔
      ∀ s ∈ p.steps, ∀ as, InDoms M s.vars as → M.fn (.step s.fid) as ∈ points →
        M.fn .evalCond [M.fn .cond [M.fn (.step s.fid) as]] =
          M.fn .evalCond [eval M (ρ.sets s.vars as) s.condition] ∧
        M.fn .evalMsg [M.fn .msg [M.fn (.step s.fid) as]] =
          M.fn .evalMsg [eval M (ρ.sets s.vars as) s.message] := by
  simp only [msgCondUnfold, List.mem_map, forall_exists_index, and_imp, forall_apply_eq_imp_iff₂,
    holds_forall, quantVal_all, hL.holds_imp]
  refine forall_congr' fun s => forall_congr' fun hs => forall_congr' fun as =>
    forall_congr' fun has => ?_
  have hsv : eval M (ρ.sets s.vars as) s.formula = M.fn (.step s.fid) as := by
    rw [Step.formula, eval_app_vars, Valn.sets_map _ _ _ (hwf s hs) has.length]
  rw [holds_happens h, hsv, hL.holds_ands]
  simp only [List.mem_cons, List.not_mem_nil, or_false, forall_eq_or_imp, forall_eq, hL.holds_meq,
    SFm.evalC, SFm.evalM, eval, evals, hsv]

/-- Every axiom of the unfolding generator is one of the three kinds, and all the message/condition
ones are there, whatever the options. -/
theorem C49_always_emitted (r d : Bool) (p : Protocol) (l : List SFm)
    (hl : unfoldingGenerate r d p = some l) : ∀ ax ∈ msgCondUnfold p, ax ∈ l := by
  unfold unfoldingGenerate at hl
  cases hi : p.init with
  | none => rw [hi] at hl; simp at hl
  | some i =>
    rw [hi] at hl
    simp only [Option.map_some, Option.some.injEq] at hl
    subst hl
    intro ax hax
    simp [hax]

end CV
