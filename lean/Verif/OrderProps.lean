import Verif.Trace
import Verif.SubstProps
/-
Properties C08, C09, C10: the ordering axioms.
-/
namespace CV
set_option linter.unusedSimpArgs false
variable {D : Type}
open SFm Fm

section
variable {M : Str Sym D} {points : List D} {undef first : D}

theorem IsTrace.idx_inj (h : IsTrace M points undef first) {i j : Nat} {a : D}
    (hi : points[i]? = some a) (hj : points[j]? = some a) : i = j := by
  obtain ⟨hi', _⟩ := List.getElem?_eq_some_iff.1 hi
  exact (List.getElem?_inj hi' h.nodup).1 (hi.trans hj.symm)

theorem IsTrace.idx_of_mem {a : D} (ha : a ∈ points) : ∃ i : Nat, points[i]? = some a :=
  List.mem_iff_getElem?.1 ha

theorem IsTrace.mem_of_idx {a : D} {i : Nat} (ha : points[i]? = some a) : a ∈ points :=
  List.mem_iff_getElem?.2 ⟨i, ha⟩

theorem holds_happens (h : IsTrace M points undef first) {ρ : Valn D} {t : SFm} :
    holds M ρ (SFm.happens t) ↔ eval M ρ t ∈ points := by
  simp [holds, SFm.happens, eval, evals, h.happens, M.truth_ofProp]
theorem holds_leq (h : IsTrace M points undef first) {ρ : Valn D} {a b : SFm} :
    holds M ρ (SFm.leq a b) ↔ ∃ i j : Nat, i ≤ j ∧ points[i]? = some (eval M ρ a) ∧
      points[j]? = some (eval M ρ b) := by
  simp [holds, SFm.leq, eval, evals, h.leq, M.truth_ofProp]
theorem holds_lt (h : IsTrace M points undef first) {ρ : Valn D} {a b : SFm} :
    holds M ρ (SFm.lt a b) ↔ ∃ i j : Nat, i < j ∧ points[i]? = some (eval M ρ a) ∧
      points[j]? = some (eval M ρ b) := by
  simp [holds, SFm.lt, eval, evals, h.lt, M.truth_ofProp]
theorem eval_pred {ρ : Valn D} {a : SFm} :
    eval M ρ (SFm.pred a) = M.fn .pred [eval M ρ a] := by
  simp [SFm.pred, eval, evals]

/-- `pred` of a point: the previous one, or undefined for the first. -/
theorem IsTrace.pred_cases (h : IsTrace M points undef first) {d : D} {i : Nat}
    (hd : points[i]? = some d) :
    (i = 0 ∧ d = first ∧ M.fn .pred [d] = undef) ∨
    (∃ j, i = j + 1 ∧ points[j]? = some (M.fn .pred [d])) := by
  cases i with
  | zero =>
    have : d = first := by rw [h.head] at hd; exact (Option.some.inj hd).symm
    exact Or.inl ⟨rfl, this, by rw [this]; exact h.pred_first⟩
  | succ j =>
    right
    refine ⟨j, rfl, ?_⟩
    obtain ⟨hlt, _⟩ := List.getElem?_eq_some_iff.1 hd
    have hj : points[j]? = some points[j] := List.getElem?_eq_getElem (by omega)
    rw [h.pred_succ j _ d hj hd, hj]

theorem IsTrace.pred_mem (h : IsTrace M points undef first) {d : D} (hd : M.dom .step d)
    (hp : M.fn .pred [d] ∈ points) :
    ∃ j : Nat, points[j]? = some (M.fn .pred [d]) ∧ points[j + 1]? = some d := by
  rcases (h.dom_step d).1 hd with hd | rfl
  · obtain ⟨i, hi⟩ := IsTrace.idx_of_mem hd
    rcases h.pred_cases hi with ⟨_, _, hu⟩ | ⟨j, rfl, hj⟩
    · rw [hu] at hp; exact absurd hp h.undef_not
    · exact ⟨j, hj, hi⟩
  · rw [h.pred_undef] at hp; exact absurd hp h.undef_not

/-- **C08 (partial).** Every general axiom about happens / before / predecessor, except the one
about `gt`, is true in every execution and under every valuation. Missing: the `gt` axiom, which is
false (`C08_gt_axiom_false`). -/
theorem C08_order_axioms_partial (hL : Logic M) (h : IsTrace M points undef first) (init : SFm)
    (hinit : ∀ ρ, eval M ρ init = first) (ρ : Valn D) :
    ∀ ax ∈ orderAxioms init, holds M ρ ax := by
  have hh : ∀ d, M.dom .step d → (d ∈ points ∨ d = undef) := fun d => (h.dom_step d).1
  have hfirst : first ∈ points := IsTrace.mem_of_idx h.head
  intro ax hax
  simp only [orderAxioms, List.mem_cons, List.not_mem_nil, or_false] at hax
  rcases hax with rfl | rfl | rfl | rfl | rfl | rfl | rfl | rfl | rfl | rfl | rfl | rfl <;>
    simp only [holds_forall, quantVal, hL.holds_imp, hL.holds_ors, hL.holds_ands, hL.holds_not,
      hL.holds_meq, holds_happens h, holds_leq h, eval_pred, List.mem_cons, List.not_mem_nil,
      or_false, forall_eq_or_imp, forall_eq, exists_eq_or_imp, exists_eq_left, hinit, st, sv, eval,
      Valn.set, if_true, reduceIte, Nat.reduceEqDiff, not_exists, 
      reduceCtorEq, Nat.succ_ne_self, ↓reduceIte, Nat.one_ne_zero, Nat.zero_ne_one]
  · -- lt is leq and different
    intro d1 hd1 d2 hd2
    have e1 := holds_leq h (ρ := (ρ.set 1 d1).set 2 d2) (a := st 1) (b := st 2)
    have e2 := holds_lt h (ρ := (ρ.set 1 d1).set 2 d2) (a := st 1) (b := st 2)
    simp only [SFm.ands, SFm.mnot, SFm.leq, SFm.lt, SFm.meq, eval, evals, hL.and, hL.not, hL.eq,
      h.leq, h.lt, M.ofProp_inj, List.mem_cons, List.not_mem_nil, or_false, forall_eq_or_imp,
      forall_eq, M.truth_ofProp, st, sv, Valn.set, if_true, reduceIte, Nat.reduceEqDiff,
       reduceCtorEq]
    constructor
    · rintro ⟨⟨i, j, hij, hi, hj⟩, hne⟩
      refine ⟨i, j, ?_, hi, hj⟩
      rcases Nat.lt_or_eq_of_le hij with hlt | rfl
      · exact hlt
      · rw [hi] at hj; exact absurd (Option.some.inj hj) hne
    · rintro ⟨i, j, hij, hi, hj⟩
      refine ⟨⟨i, j, Nat.le_of_lt hij, hi, hj⟩, ?_⟩
      rintro rfl
      have := h.idx_inj hi hj
      omega
  · exact hfirst
  · intro d _ hd
    obtain ⟨i, hi⟩ := IsTrace.idx_of_mem hd
    exact ⟨0, i, Nat.zero_le _, h.head, hi⟩
  · intro d _ hd
    obtain ⟨i, hi⟩ := IsTrace.idx_of_mem hd
    rcases h.pred_cases hi with ⟨_, he, _⟩ | ⟨j, _, hj⟩
    · exact Or.inl he
    · exact Or.inr (IsTrace.mem_of_idx hj)
  · intro d1 hd1 d2 hd2
    rcases hh d1 hd1 with h1 | h1
    · exact Or.inl (Or.inl h1)
    · rcases hh d2 hd2 with h2 | h2
      · exact Or.inl (Or.inr h2)
      · right; rw [h1, h2]
  · rintro d1 _ d2 _ d3 _ ⟨⟨i, j, hij, hi, hj⟩, ⟨k, l, hkl, hk, hl⟩⟩
    have := h.idx_inj hj hk
    exact ⟨i, l, by omega, hi, hl⟩
  · rintro d1 _ d2 _ ⟨⟨i, j, hij, hi, hj⟩, ⟨k, l, hkl, hk, hl⟩⟩
    have h1 := h.idx_inj hj hk
    have h2 := h.idx_inj hi hl
    have : i = j := by omega
    subst this
    rw [hi] at hj; exact Option.some.inj hj
  · intro d1 _ d2 _
    simp only [SFm.ands, SFm.ors, SFm.leq, SFm.happens, eval, evals, hL.and, hL.or, h.leq, h.happens,
      M.ofProp_inj, List.mem_cons, List.not_mem_nil, or_false, forall_eq_or_imp, exists_eq_or_imp,
      exists_eq_left,
      forall_eq, M.truth_ofProp, st, sv, Valn.set, if_true, reduceIte, Nat.reduceEqDiff,
       reduceCtorEq]
    constructor
    · rintro ⟨h1, h2⟩
      obtain ⟨i, hi⟩ := IsTrace.idx_of_mem h1
      obtain ⟨j, hj⟩ := IsTrace.idx_of_mem h2
      rcases Nat.le_total i j with hij | hij
      · exact Or.inl ⟨i, j, hij, hi, hj⟩
      · exact Or.inr ⟨j, i, hij, hj, hi⟩
    · rintro (⟨i, j, _, hi, hj⟩ | ⟨i, j, _, hi, hj⟩)
      · exact ⟨IsTrace.mem_of_idx hi, IsTrace.mem_of_idx hj⟩
      · exact ⟨IsTrace.mem_of_idx hj, IsTrace.mem_of_idx hi⟩
  · intro d hd hp
    obtain ⟨j, hj, hj'⟩ := h.pred_mem hd hp
    exact ⟨j, j + 1, by omega, hj, hj'⟩
  · intro d _ hd he
    obtain ⟨i, hi⟩ := IsTrace.idx_of_mem hd
    rcases h.pred_cases hi with ⟨_, _, hu⟩ | ⟨j, rfl, hj⟩
    · rw [hu] at he; rw [← he] at hd; exact h.undef_not hd
    · rw [he] at hj
      have := h.idx_inj hi hj
      omega
  · intro d hd hp
    obtain ⟨j, _, hj'⟩ := h.pred_mem hd hp
    exact IsTrace.mem_of_idx hj'
  · rintro d1 hd1 d2 _ ⟨hp, h2⟩
    obtain ⟨j, hj, hj'⟩ := h.pred_mem hd1 hp
    obtain ⟨i, hi⟩ := IsTrace.idx_of_mem h2
    rcases Nat.lt_or_ge j i with hji | hji
    · exact Or.inr ⟨j + 1, i, hji, hj', hi⟩
    · exact Or.inl ⟨i, j, hji, hi, hj⟩

/-- **C08, the `gt` axiom is false.** In no execution is the emitted axiom about `gt` true when `gt`
means "strictly after": the axiom negates the intended equivalence. -/
theorem C08_gt_axiom_false (hL : Logic M) (h : IsTrace M points undef first)
    (hgt : ∀ a b, M.fn .gt [a, b] = M.fn .lt [b, a]) (ρ : Valn D) : ¬ holds M ρ gtAxiom := by
  have hu : M.dom .step undef := (h.dom_step undef).2 (Or.inr rfl)
  simp only [gtAxiom, holds_forall, quantVal, hL.holds_not, hL.holds_meq]
  intro H
  apply H undef hu undef hu
  simp only [SFm.gt, SFm.lt, eval, evals, hgt]

/-- What the emitted `gt` axiom does say: `gt` is the complement of "strictly after". -/
theorem C08_gt_axiom_meaning (hL : Logic M) (h : IsTrace M points undef first) (ρ : Valn D)
    (hb : ∀ a b, ∃ q : Prop, M.fn .gt [a, b] = M.ofProp q) :
    holds M ρ gtAxiom ↔ ∀ a b, M.dom .step a → M.dom .step b →
      (M.truth (M.fn .gt [a, b]) ↔ ¬ M.truth (M.fn .lt [b, a])) := by
  simp only [gtAxiom, holds_forall, quantVal, hL.holds_not, hL.holds_meq, SFm.gt, SFm.lt, eval,
    evals, st, sv, Valn.set, if_true, reduceIte, Nat.one_ne_zero, Nat.zero_ne_one]
  constructor
  · intro H a b ha hb'
    have := H a ha b hb'
    obtain ⟨q, hq⟩ := hb a b
    rw [hq, h.lt, M.ofProp_inj] at this
    rw [hq, h.lt, M.truth_ofProp, M.truth_ofProp]
    generalize (∃ i j : Nat, i < j ∧ points[i]? = some b ∧ points[j]? = some a) = r at this ⊢
    by_cases hq : q <;> by_cases hr : r <;> simp_all
  · intro H a ha b hb'
    have := H a b ha hb'
    intro he
    rw [he] at this
    exact (iff_not_self this)


/-- A step's parameters have distinct numbers (the parser numbers them 0, 1, 2, ...). -/
def Step.WF (s : Step) : Prop := (s.vars.map Var.id).Nodup

theorem le_maxVar {l : List Nat} {i : Nat} (h : i ∈ l) : i < maxVar l := by
  have := (C05_fresh l 0).2 i h
  simpa [maxVar] using this

theorem map_shift_nodup {vs : List Var} (n : Nat) (h : (vs.map Var.id).Nodup) :
    ((vs.map (·.shift n)).map Var.id).Nodup := by
  induction vs with
  | nil => simp
  | cons v vs ih =>
    simp only [List.map_cons, List.nodup_cons] at h ⊢
    refine ⟨?_, ih h.2⟩
    intro hm
    apply h.1
    simp only [List.map_map, List.mem_map, Function.comp, Var.shift] at hm ⊢
    obtain ⟨w, hw, he⟩ := hm
    exact ⟨w, hw, by omega⟩

/-- **C09, distinctness.** In every run, the axiom emitted for each step is true: a happening
instance of it is no instance of another step, and equals another instance of the same step only if
the indices are equal. -/
theorem C09_distinct {p : Protocol} (hL : Logic M) (h : IsRun M p points undef first)
    (hwf : ∀ s ∈ p.steps, s.WF) (ρ : Valn D) :
    ∀ s ∈ p.steps, holds M ρ (stepDistinct p.steps s) := by
  intro s hs
  simp only [stepDistinct, holds_forall, quantVal_all, hL.holds_imp]
  intro as has hap
  rw [holds_happens h.toIsTrace] at hap
  have hsv : eval M (ρ.sets s.vars as) s.formula = M.fn (.step s.fid) as := by
    rw [Step.formula, eval_app_vars, Valn.sets_map _ _ _ (hwf s hs) has.length]
  rw [hsv] at hap
  rw [hL.holds_ands]
  intro c hc
  simp only [List.mem_map] at hc
  obtain ⟨s2, hs2, rfl⟩ := hc
  generalize hm : maxVar (s.vars.map Var.id) = m
  have hlow : ∀ v ∈ s.vars, ∀ bs, ((ρ.sets s.vars as).sets (s2.vars.map (·.shift m)) bs) v.id =
      (ρ.sets s.vars as) v.id := by
    intro v hv bs
    apply Valn.sets_notin
    intro hmem
    simp only [List.map_map, List.mem_map, Function.comp, Var.shift] at hmem
    obtain ⟨w, _, hw⟩ := hmem
    have := le_maxVar (List.mem_map_of_mem (f := Var.id) hv)
    omega
  have he1 : ∀ bs, eval M ((ρ.sets s.vars as).sets (s2.vars.map (·.shift m)) bs) s.formula =
      M.fn (.step s.fid) as := by
    intro bs
    rw [← hsv, Step.formula, eval_app_vars, eval_app_vars]
    congr 1
    exact List.map_congr_left (fun v hv => hlow v hv bs)
  have hread : ∀ bs, InDoms M s2.vars bs → (s2.vars.map (·.shift m)).map
      (fun v => ((ρ.sets s.vars as).sets (s2.vars.map (·.shift m)) bs) v.id) = bs := by
    intro bs hbs
    exact Valn.sets_map _ _ _ (map_shift_nodup m (hwf s2 hs2)) (by simpa using hbs.length)
  have he2 : ∀ bs, InDoms M s2.vars bs →
      eval M ((ρ.sets s.vars as).sets (s2.vars.map (·.shift m)) bs)
        (.app (.step s2.fid) ((s2.vars.map (·.shift m)).map .var)) = M.fn (.step s2.fid) bs := by
    intro bs hbs
    rw [eval_app_vars, hread bs hbs]
  by_cases hf : s.fid = s2.fid
  · simp only [hf, if_true, holds_forall, quantVal_all, hL.holds_imp, hL.holds_meq]
    intro bs hbs heq
    have hbs' := (InDoms.shift m).1 hbs
    rw [he1, he2 bs hbs'] at heq
    have hab := (h.inj s hs s2 hs2 as bs has hbs' hap heq).2
    rw [hL.holds_ands]
    intro c hc
    simp only [List.mem_map] at hc
    obtain ⟨⟨v, w⟩, hvw, rfl⟩ := hc
    rw [hL.holds_meq]
    simp only [eval]
    obtain ⟨k, hk⟩ := List.mem_iff_getElem?.1 hvw
    rw [List.getElem?_zip_eq_some] at hk
    have hv : v ∈ s.vars := List.mem_iff_getElem?.2 ⟨k, hk.1⟩
    rw [hlow v hv]
    have r1 := congrArg (·[k]?) (Valn.sets_map s.vars ρ as (hwf s hs) has.length)
    have r2 := congrArg (·[k]?) (hread bs hbs')
    simp only [List.getElem?_map, hk.1, Option.map_some] at r1
    rw [List.getElem?_map, hk.2, Option.map_some] at r2
    subst hab
    exact Option.some.inj (r1.trans r2.symm)
  · simp only [hf, if_false, holds_forall, quantVal_all, hL.holds_not, hL.holds_meq]
    intro bs hbs heq
    have hbs' := (InDoms.shift m).1 hbs
    rw [he1, he2 bs hbs'] at heq
    exact hf (h.inj s hs s2 hs2 as bs has hbs' hap heq).1

/-- **C09, exhaustiveness.** In every run, the axiom "every happening time point is an instance of
some step" is true. -/
theorem C09_exhaustive {p : Protocol} (hL : Logic M) (h : IsRun M p points undef first)
    (hwf : ∀ s ∈ p.steps, s.WF) (ρ : Valn D) : holds M ρ (stepExhaustive p.steps) := by
  simp only [stepExhaustive, holds_forall, quantVal, hL.holds_imp]
  intro d _ hd
  rw [holds_happens h.toIsTrace] at hd
  generalize hm : maxVar ((p.steps.flatMap Step.vars).map Var.id) = m at *
  have hval : eval M (ρ.set (sv m).id d) (st m) = d := by simp [eval, st, Valn.set]
  rw [hval] at hd
  rw [hL.holds_ors]
  obtain ⟨s, hs, as, has, he⟩ := h.surj d hd
  refine ⟨_, List.mem_map.2 ⟨s, hs, rfl⟩, ?_⟩
  rw [holds_exists, quantVal_ex]
  refine ⟨as, has, ?_⟩
  rw [hL.holds_meq, Step.formula, eval_app_vars, Valn.sets_map _ _ _ (hwf s hs) has.length, he]
  simp only [eval, st, sv]
  rw [Valn.sets_notin]
  · simp [Valn.set]
  · intro hmem
    have : m ∈ (p.steps.flatMap Step.vars).map Var.id := by
      rw [List.mem_map] at hmem ⊢
      obtain ⟨v, hv, he⟩ := hmem
      exact ⟨v, List.mem_flatMap.2 ⟨s, hs, hv⟩, he⟩
    have := le_maxVar this
    omega

/-- **C09, converse.** Any interpretation of the steps that satisfies the emitted distinctness
axioms does separate happening instances: the axioms say no less than intended. -/
theorem C09_distinct_converse {p : Protocol} (hL : Logic M) (h : IsTrace M points undef first)
    (hwf : ∀ s ∈ p.steps, s.WF) (ρ : Valn D)
    (hax : ∀ s ∈ p.steps, holds M ρ (stepDistinct p.steps s))
    (s s2 : Step) (hs : s ∈ p.steps) (hs2 : s2 ∈ p.steps) (as bs : List D)
    (has : InDoms M s.vars as) (hbs : InDoms M s2.vars bs)
    (hvars : s.fid = s2.fid → s.vars.length = s2.vars.length)
    (hap : M.fn (.step s.fid) as ∈ points)
    (heq : M.fn (.step s.fid) as = M.fn (.step s2.fid) bs) : s.fid = s2.fid ∧ as = bs := by
  have hH := hax s hs
  simp only [stepDistinct, holds_forall, quantVal_all, hL.holds_imp] at hH
  have hsv : eval M (ρ.sets s.vars as) s.formula = M.fn (.step s.fid) as := by
    rw [Step.formula, eval_app_vars, Valn.sets_map _ _ _ (hwf s hs) has.length]
  have hH := hH as has (by rw [holds_happens h, hsv]; exact hap)
  rw [hL.holds_ands] at hH
  have hH := hH _ (List.mem_map.2 ⟨s2, hs2, rfl⟩)
  generalize hm : maxVar (s.vars.map Var.id) = m at *
  have hlow : ∀ v ∈ s.vars, ((ρ.sets s.vars as).sets (s2.vars.map (·.shift m)) bs) v.id =
      (ρ.sets s.vars as) v.id := by
    intro v hv
    apply Valn.sets_notin
    intro hmem
    simp only [List.map_map, List.mem_map, Function.comp, Var.shift] at hmem
    obtain ⟨w, _, hw⟩ := hmem
    have := le_maxVar (List.mem_map_of_mem (f := Var.id) hv)
    omega
  have he1 : eval M ((ρ.sets s.vars as).sets (s2.vars.map (·.shift m)) bs) s.formula =
      M.fn (.step s.fid) as := by
    rw [← hsv, Step.formula, eval_app_vars, eval_app_vars]
    congr 1
    exact List.map_congr_left (fun v hv => hlow v hv)
  have hread : (s2.vars.map (·.shift m)).map
      (fun v => ((ρ.sets s.vars as).sets (s2.vars.map (·.shift m)) bs) v.id) = bs :=
    Valn.sets_map _ _ _ (map_shift_nodup m (hwf s2 hs2)) (by simpa using hbs.length)
  have he2 : eval M ((ρ.sets s.vars as).sets (s2.vars.map (·.shift m)) bs)
        (.app (.step s2.fid) ((s2.vars.map (·.shift m)).map .var)) = M.fn (.step s2.fid) bs := by
    rw [eval_app_vars, hread]
  by_cases hf : s.fid = s2.fid
  · refine ⟨hf, ?_⟩
    simp only [hf, if_true, holds_forall, quantVal_all, hL.holds_imp, hL.holds_meq] at hH
    have hH := hH bs ((InDoms.shift m).2 hbs) (by rw [he1, he2]; exact heq)
    rw [hL.holds_ands] at hH
    have r1 := Valn.sets_map s.vars ρ as (hwf s hs) has.length
    rw [← r1, ← hread]
    apply List.ext_getElem?
    intro k
    rw [List.getElem?_map, List.getElem?_map]
    have hlen := hvars hf
    by_cases hk : k < s.vars.length
    · have hk2 : k < (s2.vars.map (·.shift m)).length := by simpa using hlen ▸ hk
      have e1 : s.vars[k]? = some s.vars[k] := List.getElem?_eq_getElem hk
      have e2 := List.getElem?_eq_getElem hk2
      have hmem : (s.vars[k], (s2.vars.map (·.shift m))[k]) ∈ s.vars.zip (s2.vars.map (·.shift m)) :=
        List.mem_iff_getElem?.2 ⟨k, by rw [List.getElem?_zip_eq_some]; exact ⟨e1, e2⟩⟩
      have := hH _ (List.mem_map.2 ⟨_, hmem, rfl⟩)
      rw [hL.holds_meq] at this
      simp only [eval] at this
      rw [hlow _ (List.getElem_mem hk)] at this
      rw [e1, e2]
      simp only [Option.map_some, this]
    · rw [List.getElem?_eq_none (by omega),
        List.getElem?_eq_none (by simp only [List.length_map]; omega)]
      rfl
  · simp only [hf, if_false, holds_forall, quantVal_all, hL.holds_not, hL.holds_meq] at hH
    exact absurd (by rw [he1, he2]; exact heq) (hH bs ((InDoms.shift m).2 hbs))

/-- What a declared order `forall/exists vs, guard => t1 op t2` means, in terms of positions in
the execution. -/
def OrderMeaning (M : Str Sym D) (points : List D) (guard : Option SFm)
    (op : OrderOp) (t1 t2 : SFm) (ρ : Valn D) : Prop :=
  let atOrBefore (a b : D) := ∃ i j : Nat, i ≤ j ∧ points[i]? = some a ∧ points[j]? = some b
  let v1 := eval M ρ t1
  let v2 := eval M ρ t2
  (∀ g, guard = some g → holds M ρ g) →
    match op with
    | .lt => v2 ∈ points → atOrBefore v1 v2
    | .gt => v1 ∈ points → atOrBefore v2 v1
    | .incompatible => ¬ (v1 ∈ points ∧ v2 ∈ points)

theorem ordering_body (hL : Logic M) (h : IsTrace M points undef first) (q : QKind) (vs : List Var)
    (guard : Option SFm) (op : OrderOp) (t1 t2 : SFm) (ρ : Valn D) :
    holds M ρ (imp (parseOrder q vs guard op t1 t2).guard
      (match (parseOrder q vs guard op t1 t2).kind with
      | .lt a b => imp (SFm.happens b) (SFm.leq a b)
      | .excl a b => mnot (ands [SFm.happens a, SFm.happens b]))) ↔
    OrderMeaning M points guard op t1 t2 ρ := by
  have hg : holds M ρ (guard.getD SFm.tru) ↔ (∀ g, guard = some g → holds M ρ g) := by
    cases guard with
    | none => simp [hL.holds_tru]
    | some g => simp
  cases op <;>
    simp only [parseOrder, OrderMeaning, hL.holds_imp, hg, hL.holds_not, hL.holds_ands,
      holds_happens h, holds_leq h, List.mem_cons, List.not_mem_nil, or_false, forall_eq_or_imp,
      forall_eq]

/-- **C10.** The formula emitted for a declared order is true exactly when, for all (for some, if
declared with `exists`) values of the declared variables satisfying the guard: for `t1 < t2`, if
`t2` happens then `t1` is at or before it; for `t1 > t2` the same with sides exchanged; for
`t1 <> t2`, not both happen. -/
theorem C10_ordering (hL : Logic M) (h : IsTrace M points undef first) (vs : List Var)
    (guard : Option SFm) (op : OrderOp) (t1 t2 : SFm) (ρ : Valn D) :
    (holds M ρ (orderingAxiom (parseOrder .all vs guard op t1 t2)) ↔
      ∀ ds, InDoms M vs ds → OrderMeaning M points guard op t1 t2 (ρ.sets vs ds)) ∧
    (holds M ρ (orderingAxiom (parseOrder .ex vs guard op t1 t2)) ↔
      ∃ ds, InDoms M vs ds ∧ OrderMeaning M points guard op t1 t2 (ρ.sets vs ds)) := by
  have hb := fun q ρ' => ordering_body hL h q vs guard op t1 t2 ρ'
  constructor
  · unfold orderingAxiom
    rw [holds_quant]
    show quantVal M .all vs _ ρ ↔ _
    rw [quantVal_all]
    exact forall_congr' fun ds => imp_congr Iff.rfl (hb .all _)
  · unfold orderingAxiom
    rw [holds_quant]
    show quantVal M .ex vs _ ρ ↔ _
    rw [quantVal_ex]
    exact exists_congr fun ds => and_congr Iff.rfl (hb .ex _)

/-- **C08–C10 together (partial).** In every run that obeys the user's declared orders, everything
emitted by the order generator except the `gt` axiom is true. -/
theorem C08_order_generate_partial {p : Protocol} (hL : Logic M) (h : IsRun M p points undef first)
    (hwf : ∀ s ∈ p.steps, s.WF) (ρ : Valn D) (l : List SFm) (hl : orderGenerate p = some l)
    (hord : ∀ o ∈ p.ordering, holds M ρ (orderingAxiom o)) :
    ∀ ax ∈ l, ax = gtAxiom ∨ holds M ρ ax := by
  unfold orderGenerate at hl
  cases hi : p.init with
  | none => rw [hi] at hl; simp at hl
  | some i =>
    rw [hi] at hl
    simp only [Option.map_some, Option.some.injEq] at hl
    subst hl
    intro ax hax
    simp only [List.mem_append, List.mem_map, List.mem_cons, List.not_mem_nil, or_false] at hax
    obtain ⟨hiv, hif⟩ := h.init i hi
    have hinit : ∀ ρ, eval M ρ i.formula = first := by
      intro ρ
      rw [Step.formula, eval_app_vars, hiv]
      exact hif
    rcases hax with (((hax | hax) | ⟨s, hs, rfl⟩) | rfl) | ⟨o, ho, rfl⟩
    · exact Or.inr (C08_order_axioms_partial hL h.toIsTrace i.formula hinit ρ ax hax)
    · exact Or.inl hax
    · exact Or.inr (C09_distinct hL h hwf ρ s hs)
    · exact Or.inr (C09_exhaustive hL h hwf ρ)
    · exact Or.inr (hord o ho)

end
end CV
