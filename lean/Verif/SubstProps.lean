import Verif.Subst
import Verif.Semantics
/-
Properties C01, C02, C03, C05, C06 (substitution and variable numbering).
-/
namespace CV
variable {F D : Type}
open Fm

/-! ## C01: substitution has its semantic meaning -/

/-- SPECIFICATION. No quantifier of `f` binds a variable that the substitution moves, nor a
variable that appears free in a term inserted for another variable of `f`. -/
def NoCapture (s : Subst F) (f : Fm F) : Prop :=
  ∀ x ∈ f.bound, ∀ v ∈ f.vars,
    (v.id = x.id → s v = .var v) ∧ (v.id ≠ x.id → ∀ w ∈ (s v).free, w.id ≠ x.id)

theorem NoCapture.arg {s : Subst F} {g : F} {args : List (Fm F)} (h : NoCapture s (.app g args))
    {a : Fm F} (ha : a ∈ args) : NoCapture s a := by
  intro x hx v hv
  exact h x (by simp only [bound, bounds_eq, List.mem_flatMap]; exact ⟨a, ha, hx⟩)
    v (by simp only [vars, varss_eq, List.mem_flatMap]; exact ⟨a, ha, hv⟩)

theorem NoCapture.body {s : Subst F} {q vs} {b : Fm F} (h : NoCapture s (.quant q vs b)) :
    NoCapture s b := by
  intro x hx v hv
  exact h x (by simp only [bound, List.mem_append]; exact Or.inr hx) v (by simpa [vars] using hv)

/-- C01, relational form: any valuation `ρ'` that gives each occurring variable the meaning of its
replacement. -/
theorem eval_apply (M : Str F D) (s : Subst F) (f : Fm F) :
    NoCapture s f → ∀ ρ ρ' : Valn D, (∀ v ∈ f.vars, ρ' v.id = eval M ρ (s v)) →
      eval M ρ (s.apply f) = eval M ρ' f := by
  induction f using Fm.ind with
  | hvar v => intro _ ρ ρ' h; simp only [Subst.apply, eval]; exact (h v (by simp [vars])).symm
  | happ g args ih =>
    intro hc ρ ρ' h
    simp only [Subst.apply, eval, evals_eq, Subst.applys_eq, List.map_map]
    congr 1
    apply List.map_congr_left
    intro a ha
    refine ih a ha (hc.arg ha) ρ ρ' ?_
    intro v hv
    exact h v (by simp only [vars, varss_eq, List.mem_flatMap]; exact ⟨a, ha, hv⟩)
  | hquant q vs b ih =>
    intro hc ρ ρ' h
    simp only [Subst.apply, eval]
    congr 1
    apply propext
    apply quantVal_rel M q (fun ρ ρ' => ∀ v ∈ b.vars, ρ' v.id = eval M ρ (s v))
    · intro x hx ρ ρ' d hr v hv
      have hc' := hc x (by simp only [bound, List.mem_append]; exact Or.inl hx) v
        (by simpa [vars] using hv)
      by_cases hvx : v.id = x.id
      · rw [hc'.1 hvx]; simp [eval, hvx, Valn.set_self]
      · rw [Valn.set_ne _ _ hvx, hr v hv]
        apply eval_agree
        intro w hw
        rw [Valn.set_ne _ _ (hc'.2 hvx w hw)]
    · intro σ σ' hr
      rw [ih hc.body σ σ' hr]
    · intro v hv; exact h v (by simpa [vars] using hv)

/-- SPECIFICATION. The valuation that re-values each listed variable to the meaning of its term
(first entry for a number wins) and leaves the others. -/
def revalue (M : Str F D) (ρ : Valn D) : List (Nat × Fm F) → Valn D
  | [] => ρ
  | (i, t) :: l => fun j => if j = i then eval M ρ t else revalue M ρ l j

theorem revalue_spec (M : Str F D) (ρ : Valn D) (l : MSubst F) (v : Var) :
    revalue M ρ l v.id = eval M ρ (l.get v) := by
  induction l with
  | nil => simp [revalue, MSubst.get, MSubst.maybeGet, eval]
  | cons p l ih =>
    obtain ⟨i, t⟩ := p
    simp only [revalue]
    by_cases h : v.id = i
    · simp [MSubst.get, MSubst.maybeGet, h]
    · rw [if_neg h, ih]
      have : (i == v.id) = false := by simp; omega
      simp [MSubst.get, MSubst.maybeGet, this]

/-- **C01.** Applying a list substitution and interpreting equals interpreting under the
re-valued valuation, for every formula whose quantifiers do not interfere. -/
theorem C01_subst_meaning (M : Str F D) (ρ : Valn D) (l : MSubst F) (f : Fm F)
    (hc : NoCapture l.get f) :
    eval M ρ (Subst.apply l.get f) = eval M (revalue M ρ l) f :=
  eval_apply M _ f hc ρ _ (fun v _ => revalue_spec M ρ l v)

/-- **C01** for a single variable. -/
theorem C01_one_var (M : Str F D) (ρ : Valn D) (i : Nat) (t f : Fm F)
    (hb : ∀ x ∈ f.bound, x.id ≠ i ∧ ∀ w ∈ t.free, w.id ≠ x.id) :
    eval M ρ (Subst.apply (Subst.oneVar i t) f) = eval M (ρ.set i (eval M ρ t)) f := by
  apply eval_apply
  · intro x hx v _
    have := hb x hx
    constructor
    · intro h; have h' : v.id ≠ i := by rw [h]; exact this.1
      simp [Subst.oneVar, h']
    · intro h w hw
      by_cases h' : v.id = i
      · simp [Subst.oneVar, h'] at hw; exact this.2 w hw
      · simp [Subst.oneVar, h', Fm.free, freeIn] at hw; rw [hw]; exact h
  · intro v _
    by_cases h : v.id = i
    · simp [Subst.oneVar, h, Valn.set_self]
    · simp [Subst.oneVar, h, Valn.set_ne _ _ h, eval]

/-- **C01** without a guard when the formula has no quantifier. -/
theorem C01_quantifier_free (M : Str F D) (ρ : Valn D) (l : MSubst F) (f : Fm F)
    (hq : f.bound = []) :
    eval M ρ (Subst.apply l.get f) = eval M (revalue M ρ l) f :=
  C01_subst_meaning M ρ l f (fun x hx => by rw [hq] at hx; cases hx)

/-- A structure on `Bool` where the single function symbol is equality. -/
noncomputable def eqStr : Str Unit Bool where
  fn := fun _ l => match l with
    | [a, b] => a == b
    | _ => false
  truth := fun b => b = true
  ofProp := fun p => @decide p (Classical.propDecidable p)
  truth_ofProp := fun p => by simp
  dom := fun _ _ => True

/-- Non-vacuity of C01: `∃x₁. x₀ = x₁` with `x₀ := x₂` meets the guard and is not trivial. -/
example : NoCapture (MSubst.get [(0, (.var ⟨2, .message⟩ : Fm Unit))])
    (.quant .ex [⟨1, .message⟩] (.app () [.var ⟨0, .message⟩, .var ⟨1, .message⟩])) := by
  intro x hx v hv
  simp [bound, bounds] at hx
  simp [vars, varss] at hv
  subst hx
  rcases hv with rfl | rfl <;>
    simp [MSubst.get, MSubst.maybeGet, Fm.free, freeIn]

/-- **C01, the guard is needed** (the code does not rename): replacing `x₀` by `x₁` in
`∀x₁. x₀ = x₁` changes the meaning. -/
theorem C01_capture_counterexample :
    ∃ (l : MSubst Unit) (f : Fm Unit) (ρ : Valn Bool),
      eval eqStr ρ (Subst.apply l.get f) ≠ eval eqStr (revalue eqStr ρ l) f := by
  refine ⟨[(0, .var ⟨1, .message⟩)],
    .quant .all [⟨1, .message⟩] (.app () [.var ⟨0, .message⟩, .var ⟨1, .message⟩]), fun _ => true, ?_⟩
  simp [Subst.apply, Subst.applys, MSubst.get, MSubst.maybeGet, eval, evals, quantVal, eqStr,
    revalue, Valn.set]

/-! `RichFormula::apply_substitution` agrees with the list substitution. -/

theorem applyFn_eq_apply (g : Var → Fm F) (f : Fm F) : f.applyFn g = Subst.apply g f := by
  induction f using Fm.ind with
  | hvar v => rfl
  | happ h args ih =>
    simp only [applyFn, Subst.apply, Subst.applys_eq]
    congr 1
    induction args with
    | nil => rfl
    | cons a as iha =>
      simp only [applyFns, List.map_cons]
      rw [ih a (by simp), iha (fun b hb => ih b (by simp [hb]))]
  | hquant q vs b ih => simp [applyFn, Subst.apply, ih]

theorem apply_congr (s t : Subst F) (f : Fm F) (h : ∀ v ∈ f.vars, s v = t v) :
    s.apply f = t.apply f := by
  induction f using Fm.ind with
  | hvar v => exact h v (by simp [vars])
  | happ g args ih =>
    simp only [Subst.apply, Subst.applys_eq]
    congr 1
    apply List.map_congr_left
    intro a ha
    exact ih a ha (fun v hv => h v (by
      simp only [vars, varss_eq, List.mem_flatMap]; exact ⟨a, ha, hv⟩))
  | hquant q vs b ih =>
    simp only [Subst.apply]
    rw [ih (fun v hv => h v (by simpa [vars] using hv))]

theorem findIdx_zip (vs : List Nat) (fs : List (Fm F)) (hl : vs.length = fs.length) (v : Var) :
    ((vs.findIdx? (· == v.id)).bind (fun i => fs[i]?)).getD (.var v)
      = MSubst.get (vs.zip fs) v := by
  induction vs generalizing fs with
  | nil => simp [MSubst.get, MSubst.maybeGet]
  | cons i vs ih =>
    cases fs with
    | nil => simp at hl
    | cons t fs =>
      simp only [List.length_cons, Nat.add_right_cancel_iff] at hl
      have ih := ih fs hl
      by_cases h : i = v.id
      · simp [List.findIdx?_cons, h, MSubst.get, MSubst.maybeGet]
      · simp only [List.findIdx?_cons, beq_iff_eq, h, if_false]
        simp only [MSubst.get, MSubst.maybeGet, List.zip_cons_cons, List.find?_cons] at ih ⊢
        have : (i == v.id) = false := by simp [h]
        rw [this]
        rw [← ih]
        cases vs.findIdx? (· == v.id) <;> simp

/-- **C01** for `apply_substitution(vars, fs)`: on lists of the same length it never panics and is
the simultaneous substitution of the `i`-th formula for the `i`-th variable. -/
theorem C01_apply_substitution (vs : List Nat) (fs : List (Fm F)) (hl : vs.length = fs.length)
    (f : Fm F) : f.applySubstitution vs fs = some (Subst.apply (MSubst.get (vs.zip fs)) f) := by
  unfold applySubstitution
  rw [if_pos]
  · congr 1
    unfold applySome
    rw [applyFn_eq_apply]
    exact apply_congr _ _ _ (fun v _ => findIdx_zip vs fs hl v)
  · rw [List.all_eq_true]
    intro v _
    cases h : vs.findIdx? (· == v.id) with
    | none => rfl
    | some i =>
      simp only [decide_eq_true_eq]
      rw [List.findIdx?_eq_some_iff_getElem] at h
      obtain ⟨hi, _⟩ := h
      omega

example : (Fm.app () [.var ⟨3, .message⟩, .var ⟨4, .message⟩]).applySubstitution [4, 3]
    [.app () [], .var ⟨4, .message⟩] = some (.app () [.var ⟨4, .message⟩, .app () []]) := by decide

/-! ## C02: chained substitutions compose -/

/-- **C02.** Applying a chain is applying the first then the second. -/
theorem C02_chain (s t : Subst F) (f : Fm F) :
    Subst.apply (s.chain t) f = Subst.apply t (Subst.apply s f) := by
  induction f using Fm.ind with
  | hvar v => rfl
  | happ g args ih =>
    simp only [Subst.apply, Subst.applys_eq, List.map_map]
    congr 1
    apply List.map_congr_left
    intro a ha
    exact ih a ha
  | hquant q vs b ih => simp [Subst.apply, ih]

/-- **C02.** Translating after substituting is substituting then translating. -/
theorem C02_translate_after (s : Subst F) (n : Nat) (f : Fm F) :
    Subst.apply (s.chain (Subst.translate n)) f = (Subst.apply s f).translateVars n :=
  C02_chain s _ f

/-- **C02.** Translations add up. -/
theorem C02_translate_add (m n : Nat) (f : Fm F) :
    (f.translateVars m).translateVars n = f.translateVars (m + n) := by
  unfold translateVars
  rw [← C02_chain]
  apply apply_congr
  intro v _
  simp [Subst.chain, Subst.translate, Subst.apply, Nat.add_assoc]

/-- **C02.** Chaining is associative, and translating by zero changes nothing. -/
theorem C02_chain_assoc (s t u : Subst F) : (s.chain t).chain u = s.chain (t.chain u) := by
  funext v
  simp [Subst.chain, C02_chain t u]

theorem apply_id (f : Fm F) : Subst.apply (fun v => .var v) f = f := by
  induction f using Fm.ind with
  | hvar v => rfl
  | happ g args ih =>
    simp only [Subst.apply, Subst.applys_eq]
    congr 1
    conv => rhs; rw [← List.map_id args]
    exact List.map_congr_left ih
  | hquant q vs b ih => simp [Subst.apply, ih]

theorem C02_translate_zero (f : Fm F) : f.translateVars 0 = f := by
  unfold translateVars
  conv => rhs; rw [← apply_id f]
  rfl

/-! ## C03: frozen substitutions -/

theorem zipEq_unzip (s : MSubst F) :
    FrozenSubst.zipEq (s.map Prod.fst) (s.map Prod.snd) = some s := by
  induction s with
  | nil => rfl
  | cons p s ih => simp [FrozenSubst.zipEq, ih]

/-- **C03.** List → frozen never panics and converting back yields the same list. -/
theorem C03_round_trip (s : MSubst F) :
    (FrozenSubst.ofMulti s).bind FrozenSubst.toMulti = some s := by
  simp [FrozenSubst.ofMulti, FrozenSubst.newFrom, FrozenSubst.toMulti, zipEq_unzip]

theorem zipEq_some (vs : List Nat) (fs : List (Fm F)) (s : MSubst F)
    (h : FrozenSubst.zipEq vs fs = some s) : vs = s.map Prod.fst ∧ fs = s.map Prod.snd := by
  induction vs generalizing fs s with
  | nil => cases fs with
    | nil => simp [FrozenSubst.zipEq] at h; simp [h.symm]
    | cons _ _ => simp [FrozenSubst.zipEq] at h
  | cons v vs ih => cases fs with
    | nil => simp [FrozenSubst.zipEq] at h
    | cons t fs =>
      simp only [FrozenSubst.zipEq, Option.map_eq_some_iff] at h
      obtain ⟨s', hs', rfl⟩ := h
      obtain ⟨h1, h2⟩ := ih fs s' hs'
      simp [← h1, ← h2]

/-- **C03.** Frozen → list → frozen is the identity too. -/
theorem C03_round_trip_frozen (z : FrozenSubst F) (s : MSubst F) (h : z.toMulti = some s) :
    FrozenSubst.ofMulti s = some z := by
  obtain ⟨h1, h2⟩ := zipEq_some _ _ _ h
  simp only [FrozenSubst.ofMulti, FrozenSubst.newFrom, ← h1, ← h2]
  rw [if_pos]
  rw [h1, h2]; simp

theorem zipEqFind_unzip (s : MSubst F) (id : Nat) :
    FrozenSubst.zipEqFind id (s.map Prod.fst) (s.map Prod.snd) = some (s.maybeGet id) := by
  induction s with
  | nil => rfl
  | cons p s ih =>
    simp only [List.map_cons, FrozenSubst.zipEqFind, MSubst.maybeGet, List.find?_cons]
    cases h : (p.1 == id)
    · simpa [MSubst.maybeGet] using ih
    · simp

/-- **C03.** The frozen form maps every variable as the list does (and does not panic). -/
theorem C03_same_variables (s : MSubst F) (z : FrozenSubst F) (h : FrozenSubst.ofMulti s = some z)
    (v : Var) : z.get v = some (s.get v) := by
  simp only [FrozenSubst.ofMulti, FrozenSubst.newFrom, List.length_map, if_true,
    Option.some.injEq] at h
  subst h
  simp [FrozenSubst.get, zipEqFind_unzip, MSubst.get]

/-- **C03.** The two list forms (`MultipleVarSubst`, `FrozenMultipleVarSubst`) agree on every
formula. -/
theorem C03_same_formulas (s : MSubst F) (f : Fm F) :
    Subst.apply s.getFrozen f = Subst.apply s.get f := by
  apply apply_congr
  intro v _
  simp only [MSubst.getFrozen, MSubst.get, MSubst.maybeGet]
  cases h : s.find? (fun p => p.1 == v.id) with
  | none => rfl
  | some p =>
    have := List.find?_some h
    simp only [beq_iff_eq] at this
    simp [Subst.oneVar, this]

/-- **C03.** First match wins: the answer is the term of the earliest entry for that number. -/
theorem C03_first_match (s₁ s₂ : MSubst F) (i : Nat) (t : Fm F) (v : Var) (hv : v.id = i)
    (h : i ∉ s₁.map Prod.fst) : MSubst.get (s₁ ++ (i, t) :: s₂) v = t := by
  have hn : s₁.find? (fun p => p.1 == v.id) = none := by
    rw [List.find?_eq_none]
    intro p hp hc
    simp only [beq_iff_eq] at hc
    exact h (List.mem_map.2 ⟨p, hp, by omega⟩)
  subst hv
  simp [MSubst.get, MSubst.maybeGet, List.find?_append, hn]

/-- **C03.** A variable with no entry is left alone. -/
theorem C03_no_match (s : MSubst F) (v : Var) (h : v.id ∉ s.map Prod.fst) : s.get v = .var v := by
  have hn : s.find? (fun p => p.1 == v.id) = none := by
    rw [List.find?_eq_none]
    intro p hp hc
    simp only [beq_iff_eq] at hc
    exact h (List.mem_map.2 ⟨p, hp, hc⟩)
  simp [MSubst.get, MSubst.maybeGet, hn]

/-- **C03.** Lists of different lengths are refused by the checked constructor. -/
theorem C03_malformed_rejected (vs : List Nat) (fs : List (Fm F)) :
    FrozenSubst.newFrom vs fs = none ↔ vs.length ≠ fs.length := by
  simp [FrozenSubst.newFrom]

example : FrozenSubst.ofMulti [(1, (Fm.app () [])), (1, .var ⟨0, .message⟩)]
    = some ⟨[1, 1], [Fm.app () [], .var ⟨0, .message⟩]⟩ := rfl

/-! ## C05: fresh variable numbers -/

theorem le_max? (l : List Nat) (i : Nat) (h : i ∈ l) (d : Nat) : i ≤ (l.max?).getD d := by
  cases hm : l.max? with
  | none => rw [List.max?_eq_none_iff] at hm; subst hm; cases h
  | some m => exact (List.max?_eq_some_iff.1 hm).2 i h

/-- **C05.** The offered number exceeds every number of the collection and the floor. -/
theorem C05_fresh (ids : List Nat) (m : Nat) :
    m < maxVarOrMax ids m ∧ ∀ i ∈ ids, i < maxVarOrMax ids m := by
  unfold maxVarOrMax
  refine ⟨by omega, fun i hi => ?_⟩
  have := le_max? ids i hi m
  omega

/-- **C05.** It is the least such number above the floor: no number is wasted. -/
theorem C05_least (ids : List Nat) (m n : Nat) (hm : m < n) (h : ∀ i ∈ ids, i < n) :
    maxVarOrMax ids m ≤ n := by
  unfold maxVarOrMax
  cases hx : ids.max? with
  | none => simp; omega
  | some k =>
    have := h k (List.max?_eq_some_iff.1 hx).1
    simp; omega

/-- **C05** for a collection of formulas: greater than every occurring variable. -/
theorem C05_fresh_formulas (fs : List (Fm F)) (f : Fm F) (hf : f ∈ fs) (v : Var) (hv : v ∈ f.vars) :
    v.id < maxVar ((fs.flatMap vars).map Var.id) :=
  (C05_fresh _ 0).2 _ (List.mem_map.2 ⟨v, List.mem_flatMap.2 ⟨f, hf, hv⟩, rfl⟩)

theorem vars_translate (n : Nat) (f : Fm F) :
    (f.translateVars n).vars = f.vars.map (fun v => { v with id := v.id + n }) := by
  unfold translateVars
  induction f using Fm.ind with
  | hvar v => simp [Subst.apply, Subst.translate, vars]
  | happ g args ih =>
    simp only [Subst.apply, Subst.applys_eq, vars, varss_eq, List.flatMap_map, List.map_flatMap]
    rw [List.flatMap_def, List.flatMap_def]
    congr 1
    exact List.map_congr_left ih
  | hquant q vs b ih => simpa [Subst.apply, vars] using ih

/-- **C05.** Translating by a fresh number makes the occurring variables disjoint from those of
every formula of the collection. -/
theorem C05_translate_disjoint (fs : List (Fm F)) (f g : Fm F) (hg : g ∈ fs) (v w : Var)
    (hv : v ∈ (f.translateVars (maxVar ((fs.flatMap vars).map Var.id))).vars) (hw : w ∈ g.vars) :
    v.id ≠ w.id := by
  rw [vars_translate] at hv
  obtain ⟨u, _, rfl⟩ := List.mem_map.1 hv
  have := C05_fresh_formulas fs g hg w hw
  simp only
  omega

/-- **C05.** Translation never identifies two variables, nor two formulas with the same binders. -/
theorem C05_translate_injective (n : Nat) (f g : Fm F)
    (h : f.translateVars n = g.translateVars n) : f = g := by
  unfold translateVars at h
  induction f using Fm.ind generalizing g with
  | hvar v =>
    cases g with
    | var w =>
      simp only [Subst.apply, Subst.translate, Fm.var.injEq, Var.mk.injEq] at h
      cases v; cases w; simp_all
    | app _ _ => simp [Subst.apply, Subst.translate] at h
    | quant _ _ _ => simp [Subst.apply, Subst.translate] at h
  | happ k args ih =>
    cases g with
    | var w => simp [Subst.apply, Subst.translate] at h
    | quant _ _ _ => simp [Subst.apply] at h
    | app k' args' =>
      simp only [Subst.apply, Subst.applys_eq, Fm.app.injEq] at h
      obtain ⟨rfl, h⟩ := h
      congr 1
      induction args generalizing args' with
      | nil => cases args' with
        | nil => rfl
        | cons _ _ => simp at h
      | cons a as iha =>
        cases args' with
        | nil => simp at h
        | cons b bs =>
          simp only [List.map_cons, List.cons.injEq] at h
          rw [ih a (by simp) b h.1, iha (fun c hc => ih c (by simp [hc])) bs h.2]
  | hquant q vs b ih =>
    cases g with
    | var w => simp [Subst.apply, Subst.translate] at h
    | app _ _ => simp [Subst.apply] at h
    | quant q' vs' b' =>
      simp only [Subst.apply, Fm.quant.injEq] at h
      obtain ⟨rfl, rfl, h⟩ := h
      rw [ih b' h]

/-- **C05.** `sorts_to_variables` gives pairwise different numbers, all at least the start, with the
requested sorts. -/
theorem C05_sorts_to_variables (start : Nat) (s : List Srt) :
    (sortsToVariables start s).map Var.sort = s ∧
    ((sortsToVariables start s).map Var.id) = (List.range s.length).map (· + start) := by
  unfold sortsToVariables
  constructor
  · rw [List.map_map]
    conv => rhs; rw [← List.zipIdx_map_fst 0 s]
    rfl
  · rw [List.map_map, List.range_eq_range', ← List.zipIdx_map_snd 0 s, List.map_map]
    rfl

example : maxVar [3, 7, 2] = 8 := by decide
example : (sortsToVariables 5 [.message, .index]).map Var.id = [5, 6] := by decide

/-- Translation of a quantifier-free formula has the shifted meaning. -/
theorem C05_translate_meaning (M : Str F D) (ρ : Valn D) (n : Nat) (f : Fm F) (hq : f.bound = []) :
    eval M ρ (f.translateVars n) = eval M (fun i => ρ (i + n)) f := by
  apply eval_apply
  · intro x hx; rw [hq] at hx; cases hx
  · intro v _; simp [Subst.translate, eval]

/-- **C05, disagreement with the code's intent**: on a quantified formula the bound occurrences
are renamed but the binder is not, so translating a closed true formula yields a formula whose
truth depends on the valuation. -/
theorem C05_translate_quantified_counterexample :
    ∃ (f : Fm Unit) (n : Nat) (ρ : Valn Bool), f.free = [] ∧ (f.translateVars n).free ≠ [] ∧
      holds eqStr ρ f ∧ ¬ holds eqStr ρ (f.translateVars n) := by
  refine ⟨.quant .ex [⟨1, .message⟩] (.quant .ex [⟨2, .message⟩]
    (.app () [.var ⟨1, .message⟩, .var ⟨2, .message⟩])), 5, fun i => i == 6, ?_⟩
  refine ⟨by decide, by decide, ?_, ?_⟩
  · simp [holds, eval, evals, quantVal, eqStr, Valn.set]
  · simp [holds, eval, evals, quantVal, eqStr, Valn.set, translateVars, Subst.apply, Subst.applys,
      Subst.translate]

/-! ## C06: collision-avoiding renaming -/

theorem getVar_collision (vs base : List Var) (v : Var) (hv : v ∈ vs)
    (hid : ∀ w ∈ vs, w.id = v.id → w = v) :
    getVar (collisionAvoiding vs base) v =
      if v.id ∈ base.map Var.id then
        { v with id := v.id + ((((base ++ vs).map Var.id).max?).getD 0 + 1) } else v := by
  unfold getVar collisionAvoiding
  simp only
  by_cases hb : v.id ∈ base.map Var.id
  · rw [if_pos hb]
    generalize hm : (((base ++ vs).map Var.id).max?).getD 0 + 1 = m
    have : ∃ p, (List.map (fun w : Var => (w.id, ({ w with id := w.id + m } : Var)))
        (vs.filter (fun w => (base.map Var.id).contains w.id))).find? (fun p => p.1 == v.id) = some p := by
      rw [← Option.isSome_iff_exists, List.find?_isSome]
      exact ⟨(v.id, _), List.mem_map.2 ⟨v, List.mem_filter.2 ⟨hv, by simpa using hb⟩, rfl⟩, by simp⟩
    obtain ⟨p, hp⟩ := this
    rw [hp]
    have h1 := List.find?_some hp
    have h2 := List.mem_of_find?_eq_some hp
    obtain ⟨w, hw, rfl⟩ := List.mem_map.1 h2
    simp only [beq_iff_eq] at h1
    have := hid w (List.mem_filter.1 hw).1 h1
    subst this
    rfl
  · rw [if_neg hb]
    have : (List.map (fun w : Var => (w.id, ({ w with id := w.id + ((((base ++ vs).map Var.id).max?).getD 0 + 1) } : Var)))
        (vs.filter (fun w => (base.map Var.id).contains w.id))).find? (fun p => p.1 == v.id) = none := by
      rw [List.find?_eq_none]
      intro p hp hc
      obtain ⟨w, hw, rfl⟩ := List.mem_map.1 hp
      simp only [beq_iff_eq] at hc
      have := (List.mem_filter.1 hw).2
      rw [hc] at this
      exact hb (by simpa using this)
    rw [this]
    rfl

/-- SPECIFICATION. Equal numbers mean equal variables (what the debug assertion of `Variable::eq`
demands). -/
def SortConsistent (vs : List Var) : Prop := ∀ v ∈ vs, ∀ w ∈ vs, v.id = w.id → v = w

/-- **C06.** Every renamed variable is outside the base set. -/
theorem C06_outside_base (vs base : List Var) (h : SortConsistent vs) (v : Var) (hv : v ∈ vs) :
    (getVar (collisionAvoiding vs base) v).id ∉ base.map Var.id := by
  rw [getVar_collision vs base v hv (fun w hw => h w hw v hv)]
  split
  · intro hc
    have := le_max? ((base ++ vs).map Var.id) _ (by rw [List.map_append]; exact List.mem_append_left _ hc) 0
    simp only at this
    omega
  · assumption

/-- **C06.** Different variables stay different. -/
theorem C06_injective (vs base : List Var) (h : SortConsistent vs) (v w : Var) (hv : v ∈ vs)
    (hw : w ∈ vs) (hne : v.id ≠ w.id) :
    (getVar (collisionAvoiding vs base) v).id ≠ (getVar (collisionAvoiding vs base) w).id := by
  rw [getVar_collision vs base v hv (fun u hu => h u hu v hv),
    getVar_collision vs base w hw (fun u hu => h u hu w hw)]
  have h1 := le_max? ((base ++ vs).map Var.id) v.id (List.mem_map.2 ⟨v, by simp [hv], rfl⟩) 0
  have h2 := le_max? ((base ++ vs).map Var.id) w.id (List.mem_map.2 ⟨w, by simp [hw], rfl⟩) 0
  split <;> split <;> (try simp only) <;> omega

/-- **C06.** A variable that does not clash is unchanged; sorts are always kept. -/
theorem C06_unchanged (vs base : List Var) (h : SortConsistent vs) (v : Var) (hv : v ∈ vs) :
    (v.id ∉ base.map Var.id → getVar (collisionAvoiding vs base) v = v) ∧
    (getVar (collisionAvoiding vs base) v).sort = v.sort := by
  rw [getVar_collision vs base v hv (fun u hu => h u hu v hv)]
  constructor
  · intro hb; rw [if_neg hb]
  · split <;> rfl

/-- **C06.** A variable that is not among the bound ones is never renamed. -/
theorem C06_others_unchanged (vs base : List Var) (v : Var) (hv : v.id ∉ vs.map Var.id) :
    getVar (collisionAvoiding vs base) v = v := by
  unfold getVar collisionAvoiding
  simp only
  rw [List.find?_eq_none.2]
  · rfl
  · intro p hp hc
    obtain ⟨w, hw, rfl⟩ := List.mem_map.1 hp
    simp only [beq_iff_eq] at hc
    exact hv (List.mem_map.2 ⟨w, (List.mem_filter.1 hw).1, hc⟩)

example : SortConsistent [⟨1, .message⟩, ⟨2, .index⟩] := by
  intro v hv w hw h
  simp at hv hw
  rcases hv with rfl | rfl <;> rcases hw with rfl | rfl <;> simp_all
example : [⟨1, .message⟩, ⟨2, .index⟩].map
    (getVar (collisionAvoiding [⟨1, .message⟩, ⟨2, .index⟩] [⟨2, .index⟩, ⟨5, .step⟩]))
    = [⟨1, .message⟩, ⟨8, .index⟩] := by decide

end CV
