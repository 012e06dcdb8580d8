import Mathlib.Data.List.Forall2
import Verif.SearchProps
import Verif.FreeModel
set_option linter.unusedSimpArgs false
/-
Property C30: what one unfolding of a macro yields.
-/
namespace CV
namespace Dep
open Fm
variable {F D : Type}

/-- SPECIFICATION. `rn` gives the variables `vs` new numbers, different from each other and from those of
`base`, and keeps their sorts. -/
structure FreshFor (rn : Var → Var) (vs base : List Var) : Prop where
  inj : ((vs.map rn).map Var.id).Nodup
  outside : ∀ v ∈ vs, (rn v).id ∉ base.map Var.id
  sort : ∀ v ∈ vs, (rn v).sort = v.sort

/-- SPECIFICATION. `st'` is `st` with more variables, whose guard says in addition that `P` is true. -/
structure Extends (L : Lang F) (st st' : UState F) (nv : List Var) (P : ∀ {D : Type} (_ : Str F D), Valn D → Prop) : Prop where
  bound : st'.bound = st.bound ++ nv
  guard : ∀ {D : Type} (M : Str F D), Sem L M → ∀ τ, (∀ g, st'.guard = some g → M.truth (eval M τ g)) ↔
    ((∀ g, st.guard = some g → M.truth (eval M τ g)) ∧ P M τ)

theorem freshFor_collision (vs base : List Var) (h : (vs.map Var.id).Nodup) :
    FreshFor (getVar (collisionAvoiding vs base)) vs base :=
  ⟨renamed_nodup vs base h, fun _ hv => renamed_outside vs base h _ (List.mem_map_of_mem hv),
    fun v hv => (C06_unchanged vs base (sortConsistent_of_nodup h) v hv).2⟩

theorem addVariables_ok {st : UState F} {nv : List Var} (hb : (st.bound.map Var.id).Nodup) (hn : (nv.map Var.id).Nodup)
    (hd : ∀ v ∈ nv, v.id ∉ st.bound.map Var.id) : ∃ st', st.addVariables nv = some st' := by
  have := nodup_append_ids hb hn hd
  exact ⟨_, if_pos (List.Pairwise.of_map Var.id (fun a b hab e => hab (by rw [e])) this)⟩

theorem addCondition_ok {L : Lang F} {st : UState F} {nv : List Var} {c : Fm F} (hb : (st.bound.map Var.id).Nodup)
    (hn : (nv.map Var.id).Nodup) (hd : ∀ v ∈ nv, v.id ∉ st.bound.map Var.id) :
    ∃ st', st.addCondition L nv c = some st' := by
  obtain ⟨st', h⟩ := addVariables_ok hb hn hd
  exact ⟨_, by unfold UState.addCondition; rw [h]; rfl⟩

theorem extends_of {L : Lang F} {st st' : UState F} {nv : List Var} {c : Fm F}
    {P : ∀ {D : Type} (_ : Str F D), Valn D → Prop} (h : st.addCondition L nv c = some st')
    (hP : ∀ {D : Type} (M : Str F D), Sem L M → ∀ τ, M.truth (eval M τ c) ↔ P M τ) : Extends L st st' nv P := by
  obtain ⟨_, h2, h3⟩ := addCondition_some h
  refine ⟨h2, fun M hs τ => ?_⟩
  rcases h3 with ⟨h4, h5⟩ | ⟨g, h4, h5⟩
  · rw [h4, h5]
    simp only [Option.some.injEq, forall_eq', reduceCtorEq, false_implies, implies_true, true_and]
    exact hP M hs τ
  · rw [h4, h5]
    simp only [Option.some.injEq, forall_eq', Lang.ands, eval, evals, hs.and, List.mem_cons, List.not_mem_nil, or_false,
      forall_eq_or_imp, forall_eq]
    exact and_congr_right (fun _ => hP M hs τ)

theorem mapM_of_forall {α β : Type} {f : α → Option β} (l : List α) (h : ∀ a ∈ l, ∃ b, f a = some b) : ∃ r, l.mapM f = some r := by
  induction l with
  | nil => exact ⟨[], by simp⟩
  | cons a l ih =>
    obtain ⟨b, hb⟩ := h a (List.mem_cons_self ..)
    obtain ⟨r, hr⟩ := ih (fun a' ha' => h a' (List.mem_cons_of_mem _ ha'))
    exact ⟨b :: r, by simp [List.mapM_cons, hb, hr]⟩

/-- SPECIFICATION. The time point of `s` when its parameters are the variables given by `rn`. -/
def timeAt (M : Str F D) (s : GStep F) (rn : Var → Var) (τ : Valn D) : D := M.fn s.fn (s.vars.map (fun v => τ (rn v).id))

theorem eval_stepAt (M : Str F D) (s : GStep F) (r : List (Nat × Var)) (τ : Valn D) :
    eval M τ (.app s.fn (s.vars.map (renSubst r))) = timeAt M s (getVar r) τ := by
  simp only [eval, evals_eq, List.map_map, timeAt]
  rfl

/-- SPECIFICATION. `(t', st')` is the content `c` with the variables `vs` renamed away from those of `st`, under the
additional condition that `P` is true of the renamed variables; `fl` are its flags. -/
def Fresh (L : Lang F) (fl : Flags) (st : UState F) (vs : List Var) (c : Fm F)
    (P : (Var → Var) → ∀ {D : Type} (_ : Str F D), Valn D → Prop) (t' : Fm F) (st' : UState F) : Prop :=
  ∃ rn : Var → Var, FreshFor rn vs st.bound ∧ t' = Subst.apply (fun v => .var (rn v)) c ∧ st'.flags = fl ∧
    Extends L st st' (vs.map rn) (P rn)

theorem unfoldStep_spec (L : Lang F) (st : UState F) (hb : (st.bound.map Var.id).Nodup) (o : Fm F) (s : GStep F)
    (hs : (s.vars.map Var.id).Nodup) : ∃ p q, unfoldStep L o st s = some [p, q] ∧
      Fresh L st.flags st s.vars s.message (fun rn _ M τ => Lt L M (timeAt M s rn τ) (eval M τ o)) p.1 p.2 ∧
      Fresh L st.flags st s.vars s.condition (fun rn _ M τ => Lt L M (timeAt M s rn τ) (eval M τ o)) q.1 q.2 := by
  have hfr := freshFor_collision s.vars st.bound hs
  obtain ⟨st', h⟩ := addCondition_ok (L := L) (c := L.strictBefore (.app s.fn (s.vars.map (renSubst (collisionAvoiding s.vars st.bound)))) o)
    hb (renamed_nodup s.vars st.bound hs) (renamed_outside s.vars st.bound hs)
  have hE := extends_of (P := fun M τ => Lt L M (timeAt M s (getVar (collisionAvoiding s.vars st.bound)) τ) (eval M τ o)) h
    (fun M _ τ => by rw [truth_strictBefore, eval_stepAt])
  refine ⟨_, _, by simp only [unfoldStep]; rw [h]; rfl, ⟨_, hfr, rfl, (addCondition_some h).1, hE⟩,
    ⟨_, hfr, rfl, (addCondition_some h).1, hE⟩⟩

theorem unfoldAssign_spec (L : Lang F) (st : UState F) (hb : (st.bound.map Var.id).Nodup) (o : Fm F) (a : GAssign F)
    (ha : ((a.step.vars ++ a.fresh).map Var.id).Nodup) : ∃ p, unfoldAssign L false o st a = some p ∧
      Fresh L st.flags st (a.step.vars ++ a.fresh) a.content (fun rn _ M τ => Le L M (timeAt M a.step rn τ) (eval M τ o))
        p.1 p.2 := by
  obtain ⟨st', h⟩ := addCondition_ok (L := L)
    (c := L.before (.app a.step.fn (a.step.vars.map (renSubst (collisionAvoiding (a.step.vars ++ a.fresh) st.bound)))) o)
    hb (renamed_nodup _ st.bound ha) (renamed_outside _ st.bound ha)
  refine ⟨_, by simp only [unfoldAssign, Bool.false_eq_true, if_false]; rw [h]; rfl,
    ⟨_, freshFor_collision _ st.bound ha, rfl, (addCondition_some h).1, ?_⟩⟩
  exact extends_of h (fun M hs τ => by rw [truth_before hs, eval_stepAt])

theorem Fresh.with {L : Lang F} {fl : Flags} {st st₁ : UState F} {vs : List Var} {c : Fm F}
    {P : (Var → Var) → ∀ {D : Type} (_ : Str F D), Valn D → Prop} {t' : Fm F} {st' : UState F}
    (h : Fresh L fl st vs c P t' st') (hb : st.bound = st₁.bound) (hg : st.guard = st₁.guard) :
    Fresh L fl st₁ vs c P t' st' := by
  obtain ⟨rn, a1, a2, a3, a4⟩ := h
  exact ⟨rn, hb ▸ a1, a2, a3, ⟨hb ▸ a4.bound, hg ▸ a4.guard⟩⟩

theorem steps_spec (L : Lang F) (st : UState F) (hb : (st.bound.map Var.id).Nodup) (o : Fm F) (steps : List (GStep F))
    (h : ∀ s ∈ steps, (s.vars.map Var.id).Nodup) :
    ∃ l : List ((Fm F × UState F) × (Fm F × UState F)), steps.mapM (unfoldStep L o st) = some (l.map (fun p => [p.1, p.2])) ∧
      List.Forall₂ (fun s (p : (Fm F × UState F) × (Fm F × UState F)) =>
        Fresh L st.flags st s.vars s.message (fun rn _ M τ => Lt L M (timeAt M s rn τ) (eval M τ o)) p.1.1 p.1.2 ∧
        Fresh L st.flags st s.vars s.condition (fun rn _ M τ => Lt L M (timeAt M s rn τ) (eval M τ o)) p.2.1 p.2.2)
        steps l := by
  induction steps with
  | nil => exact ⟨[], by simp, .nil⟩
  | cons s ss ih =>
    obtain ⟨p, q, h1, h2, h3⟩ := unfoldStep_spec L st hb o s (h s (List.mem_cons_self ..))
    obtain ⟨l, h4, h5⟩ := ih (fun s' hs' => h s' (List.mem_cons_of_mem _ hs'))
    exact ⟨(p, q) :: l, by simp [List.mapM_cons, h1, h4], .cons ⟨h2, h3⟩ h5⟩

theorem assigns_spec (L : Lang F) (st : UState F) (hb : (st.bound.map Var.id).Nodup) (o : Fm F) (as : List (GAssign F))
    (h : ∀ a ∈ as, ((a.step.vars ++ a.fresh).map Var.id).Nodup) :
    ∃ l : List (Fm F × UState F), as.mapM (unfoldAssign L false o st) = some l ∧
      List.Forall₂ (fun a (p : Fm F × UState F) => Fresh L st.flags st (a.step.vars ++ a.fresh) a.content
        (fun rn _ M τ => Le L M (timeAt M a.step rn τ) (eval M τ o)) p.1 p.2) as l := by
  induction as with
  | nil => exact ⟨[], by simp, .nil⟩
  | cons a as ih =>
    obtain ⟨p, h1, h2⟩ := unfoldAssign_spec L st hb o a (h a (List.mem_cons_self ..))
    obtain ⟨l, h4, h5⟩ := ih (fun s' hs' => h s' (List.mem_cons_of_mem _ hs'))
    exact ⟨p :: l, by simp [List.mapM_cons, h1, h4], .cons h2 h5⟩

/-- **C30 for inputs.** Unfolding `input(.., o)` never panics and yields exactly, for each step of the
protocol in order, its message and its condition, with its parameters renamed to variables disjoint from
those of the surrounding formula, under the additional condition that the step, with these variables as
parameters, is strictly before `o`; inputs are not unfolded again below. -/
theorem C30_input (L : Lang F) (steps : List (GStep F)) (G : PreGraph F) (hG : G.input.input = true) (hG' : G.input.cells = [])
    (hpar : ∀ s ∈ steps, (s.vars.map Var.id).Nodup) (f : F) (hk : L.kind f = .mac .input) (args : List (Fm F)) (o : Fm F)
    (ho : args.getLast? = some o) (st : UState F) (hb : (st.bound.map Var.id).Nodup) (hf : st.flags.input = true) :
    ∃ l : List ((Fm F × UState F) × (Fm F × UState F)),
      unfold L steps G (.app f args) st = some (l.flatMap (fun p => [p.1, p.2])) ∧
      List.Forall₂ (fun s (p : (Fm F × UState F) × (Fm F × UState F)) =>
        Fresh L { st.flags with input := false } st s.vars s.message (fun rn _ M τ => Lt L M (timeAt M s rn τ) (eval M τ o)) p.1.1 p.1.2 ∧
        Fresh L { st.flags with input := false } st s.vars s.condition (fun rn _ M τ => Lt L M (timeAt M s rn τ) (eval M τ o)) p.2.1 p.2.2)
        steps l := by
  obtain ⟨l, h1, h2⟩ := steps_spec L { st with flags := { st.flags with input := false } } hb o steps hpar
  refine ⟨l, ?_, h2.imp fun s p h => ⟨h.1.with rfl rfl, h.2.with rfl rfl⟩⟩
  simp only [unfold, hk, hf, if_true, unfoldCellOrInput, PreGraph.ancestors, ho, hG, hG', List.flatMap_nil, h1]
  simp [List.flatMap_def]

/-- **C30 for cells.** Unfolding a call of a cell at `o` never panics and yields exactly, for each assignment
of the cells its ancestors are, what is assigned, with the parameters of the step and the fresh variables of
the assignment renamed to variables disjoint from those of the surrounding formula, under the
condition that the step is not after `o`; cells are not unfolded again below. -/
theorem C30_cell (L : Lang F) (steps : List (GStep F)) (G : PreGraph F) (c : GCell F) (anc : Ancestors F)
    (hG : G.ancestors (.cell c) = some anc) (hi : anc.input = false)
    (hpar : ∀ d ∈ anc.cells, ∀ a ∈ d.assigns, ((a.step.vars ++ a.fresh).map Var.id).Nodup) (f : F) (hk : L.kind f = .cell c)
    (args : List (Fm F)) (o : Fm F) (ho : args.getLast? = some o) (st : UState F) (hb : (st.bound.map Var.id).Nodup)
    (hf : st.flags.cells = true) :
    ∃ l : List (Fm F × UState F), unfold L steps G (.app f args) st = some l ∧
      List.Forall₂ (fun a (p : Fm F × UState F) => Fresh L { st.flags with cells := false } st (a.step.vars ++ a.fresh) a.content
        (fun rn _ M τ => Le L M (timeAt M a.step rn τ) (eval M τ o)) p.1 p.2) (anc.cells.flatMap GCell.assigns) l := by
  obtain ⟨l, h1, h2⟩ := assigns_spec L { st with flags := { st.flags with cells := false } } hb o (anc.cells.flatMap GCell.assigns) (by
    intro a ha
    obtain ⟨d, hd, ha⟩ := List.mem_flatMap.1 ha
    exact hpar d hd a ha)
  refine ⟨l, ?_, h2.imp fun a p h => h.with rfl rfl⟩
  simp only [unfold, hk, hf, if_true, unfoldCellOrInput, hG, ho, MacroRef.isInput, h1, hi]
  simp

/-- **C30 for the message and the condition of a time point**, when the parameters of the steps are not among
the variables of the surrounding formula: for each step, its message (or condition), under the condition
that the time point is this step with its own parameters. `_partial`: see
`C30_step_macro_counterexample` for the other case. -/
theorem C30_step_macro_partial (L : Lang F) (steps : List (GStep F)) (G : PreGraph F) (msg : Bool)
    (hpar : ∀ s ∈ steps, (s.vars.map Var.id).Nodup) (f : F) (hk : L.kind f = .mac (if msg then .msg else .cond)) (o : Fm F)
    (st : UState F) (hb : (st.bound.map Var.id).Nodup) (hf : st.flags.stepMac = true)
    (hcl : ∀ s ∈ steps, ∀ v ∈ s.vars, v.id ∉ st.bound.map Var.id) :
    ∃ l : List (Fm F × UState F), unfold L steps G (.app f [o]) st = some l ∧
      List.Forall₂ (fun s (p : Fm F × UState F) => p.1 = (if msg then s.message else s.condition) ∧ p.2.flags = st.flags ∧
        Extends L st p.2 s.vars (fun M τ => eval M τ o = s.time M τ)) steps l := by
  have hu : unfold L steps G (.app f [o]) st = unfoldStepMacro L steps msg [o] st := by
    cases msg <;> simp only [Bool.false_eq_true, if_false, if_true] at hk <;> simp [unfold, hk, hf]
  rw [hu]
  simp only [unfoldStepMacro]
  clear hu
  revert hpar hcl
  induction steps with
  | nil => intro _ _; exact ⟨[], by simp, .nil⟩
  | cons s ss ih =>
    intro hpar hcl
    obtain ⟨l, h4, h5⟩ := ih (fun s' hs' => hpar s' (List.mem_cons_of_mem _ hs')) (fun s' hs' => hcl s' (List.mem_cons_of_mem _ hs'))
    have hs := hpar s (List.mem_cons_self ..)
    have hid : s.vars.map (getVar (collisionAvoiding s.vars st.bound)) = s.vars := by
      conv => rhs; rw [← List.map_id s.vars]
      apply List.map_congr_left
      intro v hv
      exact (C06_unchanged _ _ (sortConsistent_of_nodup hs) v hv).1 (hcl s (List.mem_cons_self ..) v hv)
    obtain ⟨st', h⟩ := addCondition_ok (L := L) (c := L.meq o (.app s.fn (s.vars.map .var)))
      hb hs (hcl s (List.mem_cons_self ..))
    refine ⟨(if msg then s.message else s.condition, st') :: l, ?_, .cons ⟨rfl, (addCondition_some h).1, ?_⟩ h5⟩
    · simp only [List.mapM_cons, hid, h, h4]
      rfl
    · refine extends_of h (fun M hM τ => ?_)
      simp only [Lang.meq, eval, evals, hM.eq, evals_eq, List.map_map, GStep.time]
      rfl

/-- **C30 for quantifier symbols**, when the variables of the arguments are among those of the surrounding
formula and the body has no first-order quantifier: the bodies, with the bound variables renamed to
variables disjoint from those of the surrounding formula, mean what the body means when the parameters
have the values of the arguments. `_partial`: see `C30_quantifier_counterexample`. -/
theorem C30_quantifier_partial (L : Lang F) (steps : List (GStep F)) (G : PreGraph F) (f : F) (bound free : List Var)
    (content : List (Fm F)) (hk : L.kind f = .taq bound free content) (hnd : ((free ++ bound).map Var.id).Nodup)
    (hct : ∀ c ∈ content, NoQuant c ∧ ∀ v ∈ c.vars, v.id ∈ (free ++ bound).map Var.id)
    (args : List (Fm F)) (hl : args.length = free.length) (st : UState F)
    (hv : ∀ a ∈ args, ∀ v ∈ a.vars, v.id ∈ st.bound.map Var.id)
    (hb : (st.bound.map Var.id).Nodup) (hf : st.flags.taq = true) :
    ∃ (st' : UState F) (g : Fm F → Fm F) (rn : Var → Var), unfold L steps G (.app f args) st = some (content.map (fun c => (g c, st'))) ∧
      FreshFor rn bound st.bound ∧ st'.bound = st.bound ++ bound.map rn ∧ st'.guard = st.guard ∧ st'.flags = st.flags ∧
      (∀ a ∈ args, ∀ v ∈ a.vars, ∀ b ∈ bound, (rn b).id ≠ v.id) ∧
      ∀ c ∈ content, ∀ {D : Type} (M : Str F D) (τ σ : Valn D), free.map (fun v => σ v.id) = args.map (eval M τ) →
        (∀ b ∈ bound, σ b.id = τ (rn b).id) → eval M τ (g c) = eval M σ c := by
  have hbn : (bound.map Var.id).Nodup := by
    rw [List.map_append, List.nodup_append] at hnd; exact hnd.2.1
  have hdj : ∀ z : Var, z.id ∈ free.map Var.id → z.id ∉ bound.map Var.id := by
    intro z hz h'
    rw [List.map_append, List.nodup_append] at hnd
    exact hnd.2.2 _ hz _ h' rfl
  have hout := renamed_outside bound (free ++ st.bound) hbn
  have hout1 : ∀ v ∈ bound.map (getVar (collisionAvoiding bound (free ++ st.bound))), v.id ∉ st.bound.map Var.id :=
    fun v hv h' => hout v hv (by rw [List.map_append]; exact List.mem_append_right _ h')
  have hlen : (free.map Var.id).length = args.length := by simp [hl]
  obtain ⟨st', h⟩ := addVariables_ok hb (renamed_nodup bound (free ++ st.bound) hbn) hout1
  obtain ⟨h1, h2, h3⟩ := addVariables_some h
  refine ⟨st', fun c => Subst.apply (MSubst.get ((free.map Var.id).zip args))
    (Subst.apply (renSubst (collisionAvoiding bound (free ++ st.bound))) c), getVar (collisionAvoiding bound (free ++ st.bound)), ?_,
    ⟨renamed_nodup bound (free ++ st.bound) hbn, fun v hv => hout1 _ (List.mem_map_of_mem hv),
      fun v hv => (C06_unchanged _ _ (sortConsistent_of_nodup hbn) v hv).2⟩, h2, h3, h1,
    fun a ha v hv' b hb' e => hout1 _ (List.mem_map_of_mem hb') (e ▸ hv a ha v hv'), ?_⟩
  · simp [unfold, hk, hf, unfoldQuantifier, FrozenSubst.newFrom, hl, h]
  · intro c hc D M τ σ h4 h5
    show eval M τ (Subst.apply _ (Subst.apply _ c)) = _
    rw [← C02_chain]
    apply eval_apply M _ c ((hct c hc).1.noCapture _)
    intro z hz
    simp only [Subst.chain, renSubst, Subst.apply]
    have hz' := (hct c hc).2 z hz
    rw [List.map_append] at hz'
    rcases List.mem_append.1 hz' with hzf | hzb
    · rw [C06_others_unchanged _ _ _ (hdj z hzf)]
      obtain ⟨i, e1, e2⟩ := zip_get hlen hzf
      have : (free.map (fun v => σ v.id))[i]? = some (eval M τ (MSubst.get ((free.map Var.id).zip args) z)) := by
        rw [h4, List.getElem?_map, e2]; rfl
      rw [List.getElem?_map] at this e1
      obtain ⟨v, hv, e3⟩ := Option.map_eq_some_iff.1 this
      obtain ⟨v', hv', e4⟩ := Option.map_eq_some_iff.1 e1
      rw [hv] at hv'; cases hv'
      rw [← e3, e4]
    · have hnf : (getVar (collisionAvoiding bound (free ++ st.bound)) z).id ∉ free.map Var.id := by
        obtain ⟨w, hw, e⟩ := List.mem_map.1 hzb
        rw [← getVar_id_congr _ w z e]
        exact fun h' => hout _ (List.mem_map_of_mem hw) (by rw [List.map_append]; exact List.mem_append_left _ h')
      rw [zip_get_not hlen hnf]
      simp only [eval]
      obtain ⟨w, hw, e⟩ := List.mem_map.1 hzb
      rw [← getVar_id_congr _ w z e, ← e]
      exact h5 w hw

/-- **C30 for `exec`.** Unfolding `exec(.., o)` never panics and yields exactly: for each assignment of each
cell what is stored, under the condition that the step is not after `o`; then, for each step, its message
and condition, under the condition that the step is strictly before `o`. (So the condition of the step at
`o` itself, on which `exec` depends, is not looked into: see `C30_exec_counterexample`.) -/
theorem C30_exec (L : Lang F) (steps : List (GStep F)) (G : PreGraph F) (hG : G.exec.input = true)
    (hpar : ∀ s ∈ steps, (s.vars.map Var.id).Nodup)
    (hpar' : ∀ d ∈ G.exec.cells, ∀ a ∈ d.assigns, ((a.step.vars ++ a.fresh).map Var.id).Nodup) (f : F)
    (hk : L.kind f = .mac .exec) (args : List (Fm F)) (o : Fm F)
    (ho : args.getLast? = some o) (st : UState F) (hb : (st.bound.map Var.id).Nodup) (hf : st.flags.exec = true) :
    ∃ (k : List (Fm F × UState F)) (l : List ((Fm F × UState F) × (Fm F × UState F))),
      unfold L steps G (.app f args) st = some (k ++ l.flatMap (fun p => [p.1, p.2])) ∧
      List.Forall₂ (fun a (p : Fm F × UState F) => Fresh L { st.flags with exec := false } st (a.step.vars ++ a.fresh) a.content
        (fun rn _ M τ => Le L M (timeAt M a.step rn τ) (eval M τ o)) p.1 p.2) (G.exec.cells.flatMap GCell.assigns) k ∧
      List.Forall₂ (fun s (p : (Fm F × UState F) × (Fm F × UState F)) =>
        Fresh L { st.flags with exec := false } st s.vars s.message (fun rn _ M τ => Lt L M (timeAt M s rn τ) (eval M τ o)) p.1.1 p.1.2 ∧
        Fresh L { st.flags with exec := false } st s.vars s.condition (fun rn _ M τ => Lt L M (timeAt M s rn τ) (eval M τ o)) p.2.1 p.2.2)
        steps l := by
  obtain ⟨k, h1, h2⟩ := assigns_spec L { st with flags := { st.flags with exec := false } } hb o (G.exec.cells.flatMap GCell.assigns) (by
    intro a ha
    obtain ⟨d, hd, ha⟩ := List.mem_flatMap.1 ha
    exact hpar' d hd a ha)
  obtain ⟨l, h3, h4⟩ := steps_spec L { st with flags := { st.flags with exec := false } } hb o steps hpar
  refine ⟨k, l, ?_, h2.imp fun a p h => h.with rfl rfl, h4.imp fun s p h => ⟨h.1.with rfl rfl, h.2.with rfl rfl⟩⟩
  simp only [unfold, hk, hf, if_true, unfoldCellOrInput, PreGraph.ancestors, ho, MacroRef.isInput, h1, hG, h3]
  simp [List.flatMap_def]

end Dep
end CV
