import Verif.ExistProps
set_option linter.unusedSimpArgs false
/-
C66: what a search reports is a value the protocol has computed by then.
-/
namespace CV
namespace Dep
open Fm
variable {F D : Type}

/-! ## Specification -/

/-- SPECIFICATION. From a value to one it gives access to: to an argument that is a part (`vp`) of it; from the value of a quantifier symbol to the
value of one of its contents, for some values of the bound variables; from the message or condition of a time point
to that of the step; from an input, `exec` or cell at the time `T`, to what a step before `T` computes, or to what an
assignment (to any cell) until `T` stores, strictly before for an input. With `timed` false the times are not compared. -/
inductive Leads (L : Lang F) (steps : List (GStep F)) (cells : List (GCell F)) (M : Str F D) (vp : F → List D → D → Prop)
    (timed : Bool) : D → D → Prop
  | part {f l a} (h : vp f l a) : Leads L steps cells M vp timed (M.fn f l) a
  | taq {f l bound free content c σ} (h : L.kind f = .taq bound free content) (hc : c ∈ content)
      (hf : free.map (fun v => σ v.id) = l) (hb : InDom M bound σ) : Leads L steps cells M vp timed (M.fn f l) (Fm.eval M σ c)
  | msg {f T s σ} (h : L.kind f = .mac .msg) (hs : s ∈ steps) (hd : InDom M s.vars σ)
      (ht : timed = true → T = s.time M σ) : Leads L steps cells M vp timed (M.fn f [T]) (Fm.eval M σ s.message)
  | cond {f T s σ} (h : L.kind f = .mac .cond) (hs : s ∈ steps) (hd : InDom M s.vars σ)
      (ht : timed = true → T = s.time M σ) : Leads L steps cells M vp timed (M.fn f [T]) (Fm.eval M σ s.condition)
  | step {f l T s σ} (h : L.kind f = .mac .input ∨ L.kind f = .mac .exec ∨ ∃ c, L.kind f = .cell c) (hT : l.getLast? = some T)
      (hs : s ∈ steps) (hd : InDom M s.vars σ) (ht : timed = true → Lt L M (s.time M σ) T) {t : Fm F}
      (hm : t = s.message ∨ t = s.condition) : Leads L steps cells M vp timed (M.fn f l) (Fm.eval M σ t)
  | assign {f l T c a σ} (h : L.kind f = .mac .input ∨ L.kind f = .mac .exec ∨ ∃ c, L.kind f = .cell c) (hT : l.getLast? = some T)
      (hc : c ∈ cells) (ha : a ∈ c.assigns) (hd : InDom M (a.step.vars ++ a.fresh) σ)
      (ht : timed = true → Le L M (a.step.time M σ) T) (hi : timed = true → L.kind f = .mac .input → Lt L M (a.step.time M σ) T) :
      Leads L steps cells M vp timed (M.fn f l) (Fm.eval M σ a.content)

/-- SPECIFICATION. One or more times, or not at all. -/
def Reaches (L : Lang F) (steps : List (GStep F)) (cells : List (GCell F)) (M : Str F D) (vp : F → List D → D → Prop)
    (timed : Bool) : D → D → Prop :=
  Relation.ReflTransGen (Leads L steps cells M vp timed)

/-- SPECIFICATION. Every argument is a part. -/
def AnyPart (_ : F) (l : List D) (a : D) : Prop := a ∈ l

/-- SPECIFICATION. The parts that are not the key of `mac` or `verify`. -/
def NotKey (mac verify : F) (f : F) (l : List D) (a : D) : Prop :=
  f ≠ mac ∧ f ≠ verify ∧ a ∈ l ∨ f = mac ∧ a ∈ l.take 1 ∨ f = verify ∧ a ∈ l.take 2

/-- Descending gives arguments, or arguments of arguments. -/
def Digs (A : Aux F) : Prop := ∀ t a, a ∈ A.nexts t → a ∈ t.args ∨ ∃ b ∈ t.args, a ∈ b.args

/-! ## Renaming -/

theorem unrename {vs base : List Var} {M : Str F D} (hn : (vs.map Var.id).Nodup) {τ : Valn D}
    (hd : InDom M (vs.map (getVar (collisionAvoiding vs base))) τ) :
    InDom M vs (fun i => τ (getVar (collisionAvoiding vs base) ⟨i, .bool⟩).id) := by
  intro v hv
  have := hd _ (List.mem_map_of_mem hv)
  rw [(C06_unchanged vs base (sortConsistent_of_nodup hn) v hv).2] at this
  show M.dom v.sort (τ (getVar (collisionAvoiding vs base) ⟨v.id, .bool⟩).id)
  rw [getVar_id_congr _ ⟨v.id, .bool⟩ v rfl]
  exact this

theorem eval_unrename (M : Str F D) (r : List (Nat × Var)) {t : Fm F} (hq : NoQuant t) (τ : Valn D) :
    Fm.eval M τ (Subst.apply (renSubst r) t) = Fm.eval M (fun i => τ (getVar r ⟨i, .bool⟩).id) t := by
  refine eval_match hq (fun v _ => ?_)
  simp only [renSubst, Fm.eval]
  rw [getVar_id_congr _ ⟨v.id, .bool⟩ v rfl]

theorem time_unrename (M : Str F D) (r : List (Nat × Var)) (s : GStep F) (τ : Valn D) :
    Fm.eval M τ (.app s.fn (s.vars.map (renSubst r))) = s.time M (fun i => τ (getVar r ⟨i, .bool⟩).id) :=
  eval_stepF M s r τ _ (fun v _ => by rw [getVar_id_congr _ ⟨v.id, .bool⟩ v rfl])

/-! ## The search -/

section
variable {C : SearchCfg F} {fl : Flags} {roots : List (Fm F × List Var)} {outer : Nat → Prop} {cells : List (GCell F)}
  {M : Str F D} {vp : F → List D → D → Prop} {timed : Bool}

/-- The values of the variables of a state are in their domains and, if times count, its guard holds. -/
structure Meets (M : Str F D) (timed : Bool) (st : UState F) (τ : Valn D) : Prop where
  dom : InDom M st.bound τ
  guard : timed = true → ∀ g, st.guard = some g → M.truth (Fm.eval M τ g)

theorem Meets.before {L : Lang F} (hsem : Sem L M) {st st' : UState F} {nv : List Var} {c : Fm F} {τ : Valn D}
    (h : st.addCondition L nv c = some st') (hm : Meets M timed st' τ) :
    Meets M timed st τ ∧ InDom M nv τ ∧ (timed = true → M.truth (Fm.eval M τ c)) := by
  obtain ⟨_, h2, h3⟩ := addCondition_some h
  have hd : InDom M (st.bound ++ nv) τ := h2 ▸ hm.dom
  refine ⟨⟨fun v hv => hd v (List.mem_append_left _ hv), fun ht g hg => ?_⟩, fun v hv => hd v (List.mem_append_right _ hv), fun ht => ?_⟩
  · rcases h3 with ⟨h3, _⟩ | ⟨g', h3, h4⟩
    · rw [hg] at h3; cases h3
    · rw [hg] at h3; cases h3
      have := hm.guard ht _ h4
      simp only [Lang.ands, Fm.eval, evals] at this
      exact (hsem.and _).1 this _ (List.mem_cons_self ..)
  · rcases h3 with ⟨_, h3⟩ | ⟨g', _, h4⟩
    · exact hm.guard ht _ h3
    · have := hm.guard ht _ h4
      simp only [Lang.ands, Fm.eval, evals] at this
      exact (hsem.and _).1 this _ (List.mem_cons_of_mem _ (List.mem_cons_self ..))

theorem leads_rec (hsem : Sem C.L M) (hp : ProtOK C.L C.steps cells)
    (hsub : ∀ r anc, C.G.ancestors r = some anc → ∀ d ∈ anc.cells, d ∈ cells) {f : F} {args : List (Fm F)} {r : MacroRef F}
    (hf : C.L.kind f = .mac .input ∨ C.L.kind f = .mac .exec ∨ ∃ c, C.L.kind f = .cell c)
    (hr : C.L.kind f = .mac .input → r = .input) {st st' : UState F} {fl' : Flags} {l : List (Fm F × UState F)}
    (h : unfoldCellOrInput C.L C.steps C.G r { st with flags := fl' } args = some l) {t' : Fm F} (hm : (t', st') ∈ l) {τ : Valn D}
    (hτ : Meets M timed st' τ) :
    Meets M timed st τ ∧ Leads C.L C.steps cells M vp timed (Fm.eval M τ (.app f args)) (Fm.eval M τ t') := by
  unfold unfoldCellOrInput at h
  split at h
  swap
  · cases h
  rename_i anc origin hanc horig
  have hT : (args.map (Fm.eval M τ)).getLast? = some (Fm.eval M τ origin) := by rw [List.getLast?_map, horig]; rfl
  split at h
  swap
  · cases h
  rename_i cs is hcs his
  cases h
  simp only [Fm.eval, evals_eq]
  rcases List.mem_append.1 hm with hm | hm
  · obtain ⟨a, ha, e⟩ := (mapM_some hcs).2 _ hm
    obtain ⟨d, hd, ha⟩ := List.mem_flatMap.1 ha
    have hdc := hsub r anc hanc d hd
    unfold unfoldAssign at e
    simp only [Option.map_eq_some_iff, Prod.mk.injEq] at e
    obtain ⟨st'', hst, rfl, rfl⟩ := e
    obtain ⟨h1, h2, h3⟩ := hτ.before hsem hst
    refine ⟨⟨h1.dom, h1.guard⟩, ?_⟩
    rw [eval_unrename M _ (hp.content d hdc a ha).1]
    refine .assign hf hT hdc ha (unrename (hp.fresh d hdc a ha) h2) (fun ht => ?_) (fun ht hk => ?_)
    · have := h3 ht
      split at this
      · rw [truth_strictBefore, time_unrename] at this; exact .inl this
      · rw [truth_before hsem, time_unrename] at this; exact this
    · have := h3 ht
      rw [hr hk, MacroRef.isInput, if_pos rfl, truth_strictBefore, time_unrename] at this
      exact this
  · obtain ⟨y, hy, hm⟩ := List.mem_flatten.1 hm
    split at his
    swap
    · cases his; cases hy
    obtain ⟨s, hs, e⟩ := (mapM_some his).2 _ hy
    unfold unfoldStep at e
    simp only [Option.map_eq_some_iff] at e
    obtain ⟨st'', hst, rfl⟩ := e
    have key : ∀ t, (t = s.message ∨ t = s.condition) → NoQuant t → st' = st'' →
        t' = Subst.apply (renSubst (collisionAvoiding s.vars st.bound)) t →
        Meets M timed st τ ∧ Leads C.L C.steps cells M vp timed (M.fn f (args.map (Fm.eval M τ))) (Fm.eval M τ t') := by
      rintro t ht hq rfl rfl
      obtain ⟨h1, h2, h3⟩ := hτ.before hsem hst
      refine ⟨⟨h1.dom, h1.guard⟩, ?_⟩
      rw [eval_unrename M _ hq]
      refine .step hf hT hs (unrename (hp.params s hs) h2) (fun ht => ?_) ht
      have := h3 ht
      rw [truth_strictBefore, time_unrename] at this; exact this
    simp only [List.mem_cons, List.not_mem_nil, or_false, Prod.mk.injEq] at hm
    rcases hm with ⟨rfl, rfl⟩ | ⟨rfl, rfl⟩
    · exact key _ (.inl rfl) (hp.message s hs).1 rfl rfl
    · exact key _ (.inr rfl) (hp.condition s hs).1 rfl rfl

theorem leads_unfold (hsem : Sem C.L M) (hp : ProtOK C.L C.steps cells)
    (hsub : ∀ r anc, C.G.ancestors r = some anc → ∀ d ∈ anc.cells, d ∈ cells) {t t' : Fm F} {st st' : UState F}
    (hq : NoQuant t)
    (hstep : ∀ f args, t = .app f args → (C.L.kind f = .mac .msg ∨ C.L.kind f = .mac .cond) → st.flags.stepMac = true →
      ∀ s ∈ C.steps, ∀ v ∈ s.vars, v.id ∉ st.bound.map Var.id)
    {l : List (Fm F × UState F)} (hu : unfold C.L C.steps C.G t st = some l) (hm : (t', st') ∈ l) {τ : Valn D}
    (hτ : Meets M timed st' τ) :
    Meets M timed st τ ∧ Leads C.L C.steps cells M vp timed (Fm.eval M τ t) (Fm.eval M τ t') := by
  cases hq with
  | var v => simp [unfold] at hu; subst hu; cases hm
  | @app f args hargs =>
    have stepcase : ∀ msg, (C.L.kind f = .mac .msg ∨ C.L.kind f = .mac .cond) → st.flags.stepMac = true →
        unfoldStepMacro C.L C.steps msg args st = some l → Meets M timed st τ ∧ ∃ s ∈ C.steps, ∃ arg σ, args = [arg] ∧ InDom M s.vars σ ∧
          (timed = true → Fm.eval M τ arg = s.time M σ) ∧ Fm.eval M τ t' = Fm.eval M σ (if msg then s.message else s.condition) := by
      intro msg hk hfl hu'
      have hns := hstep f args rfl hk hfl
      unfold unfoldStepMacro at hu'
      split at hu'
      swap
      · cases hu'
      rename_i _ arg
      obtain ⟨s, hs, e⟩ := (mapM_some hu').2 _ hm
      simp only [Option.map_eq_some_iff, Prod.mk.injEq] at e
      obtain ⟨st'', hst, rfl, rfl⟩ := e
      have hid : s.vars.map (getVar (collisionAvoiding s.vars st.bound)) = s.vars := by
        conv => rhs; rw [← List.map_id s.vars]
        apply List.map_congr_left
        intro v hv
        exact (C06_unchanged _ _ (sortConsistent_of_nodup (hp.params s hs)) v hv).1 (hns s hs v hv)
      rw [hid] at hst
      obtain ⟨h1, h2, h3⟩ := hτ.before hsem hst
      refine ⟨h1, s, hs, arg, τ, rfl, h2, fun ht => ?_, rfl⟩
      have := h3 ht
      simp only [Lang.meq, Fm.eval, evals, evals_eq, hsem.eq, List.map_map] at this
      rw [this]
      rfl
    simp only [unfold] at hu
    split at hu
    · rename_i bound free content hk
      split at hu
      swap
      · cases hu; cases hm
      obtain ⟨hnd, hct⟩ := hp.taq f bound free content hk
      unfold unfoldQuantifier at hu
      split at hu
      · cases hu
      rename_i fs hfs
      simp only [Option.map_eq_some_iff] at hu
      obtain ⟨st'', hst, rfl⟩ := hu
      obtain ⟨c, hc, e⟩ := List.mem_map.1 hm
      simp only [Prod.mk.injEq] at e
      obtain ⟨rfl, rfl⟩ := e
      obtain ⟨h1, h2, h3⟩ := addVariables_some hst
      have hl : (free.map Var.id).length = args.length ∧ fs = ⟨free.map Var.id, args⟩ := by
        unfold FrozenSubst.newFrom at hfs
        split at hfs
        · rename_i h; cases hfs; exact ⟨h, rfl⟩
        · cases hfs
      obtain ⟨hl, rfl⟩ := hl
      have hb : (bound.map Var.id).Nodup := by
        rw [List.map_append, List.nodup_append] at hnd; exact hnd.2.1
      have hfn : (free.map Var.id).Nodup := by
        rw [List.map_append, List.nodup_append] at hnd; exact hnd.1
      have hdj : ∀ v : Var, v.id ∈ free.map Var.id → v.id ∉ bound.map Var.id := by
        intro v hv hv'
        rw [List.map_append, List.nodup_append] at hnd
        exact hnd.2.2 _ hv _ hv' rfl
      have hd : InDom M (st.bound ++ bound.map (getVar (collisionAvoiding bound (free ++ st.bound)))) τ := h2 ▸ hτ.dom
      refine ⟨⟨fun v hv => hd v (List.mem_append_left _ hv), fun ht g hg => hτ.guard ht g (h3 ▸ hg)⟩, ?_⟩
      -- the values of the variables of the content
      let θ : Subst F := (renSubst (collisionAvoiding bound (free ++ st.bound))).chain (MSubst.get ((free.map Var.id).zip args))
      let σ : Valn D := fun i => Fm.eval M τ (θ ⟨i, .bool⟩)
      have hθ : ∀ v : Var, v.id ∈ (free ++ bound).map Var.id → Fm.eval M τ (θ v) = σ v.id := by
        intro v hv
        have hr : (getVar (collisionAvoiding bound (free ++ st.bound)) v).id =
            (getVar (collisionAvoiding bound (free ++ st.bound)) ⟨v.id, .bool⟩).id := getVar_id_congr _ _ _ rfl
        simp only [σ, θ, Subst.chain, renSubst, Subst.apply]
        by_cases hf : (getVar (collisionAvoiding bound (free ++ st.bound)) v).id ∈ free.map Var.id
        · obtain ⟨i, e1, e2⟩ := zip_get hl hf
          obtain ⟨j, e3, e4⟩ := zip_get hl (z := getVar (collisionAvoiding bound (free ++ st.bound)) ⟨v.id, .bool⟩) (hr ▸ hf)
          have : i = j := by
            rw [hr] at e1
            have hi := (List.getElem?_eq_some_iff.1 e1)
            have hj := (List.getElem?_eq_some_iff.1 e3)
            obtain ⟨hi, ei⟩ := hi
            obtain ⟨hj, ej⟩ := hj
            exact (List.Nodup.getElem_inj_iff hfn).1 (ei.trans ej.symm)
          subst this
          rw [e2] at e4
          rw [Option.some.inj e4]
        · rw [zip_get_not hl hf, zip_get_not hl (hr ▸ hf)]
          simp only [Fm.eval, hr]
      rw [← C02_chain, eval_match (hct c hc).1 (κ := σ) (fun v hv => hθ v ((hct c hc).2 v hv))]
      simp only [Fm.eval, evals_eq]
      refine .taq hk hc ?_ ?_
      · apply List.ext_getElem?
        intro i
        rw [List.getElem?_map, List.getElem?_map]
        cases hv : free[i]? with
        | none =>
          have : args[i]? = none := by
            rw [List.getElem?_eq_none_iff] at hv ⊢
            rw [← hl, List.length_map]; exact hv
          rw [this]; rfl
        | some v =>
          have hvm : v.id ∈ free.map Var.id := List.mem_map_of_mem (List.mem_of_getElem? hv)
          have : θ v = ((args[i]?).getD (.var v)) := by
            simp only [θ, Subst.chain, renSubst, Subst.apply]
            rw [C06_others_unchanged _ _ _ (hdj v hvm)]
            obtain ⟨j, e1, e2⟩ := zip_get hl hvm
            have hj : i = j := by
              have hi : (free.map Var.id)[i]? = some v.id := by rw [List.getElem?_map, hv]; rfl
              obtain ⟨hi, ei⟩ := List.getElem?_eq_some_iff.1 hi
              obtain ⟨hj, ej⟩ := List.getElem?_eq_some_iff.1 e1
              exact (List.Nodup.getElem_inj_iff hfn).1 (ei.trans ej.symm)
            subst hj
            rw [e2]; rfl
          rw [Option.map_some, ← hθ v (by rw [List.map_append]; exact List.mem_append_left _ hvm), this]
          cases ha : args[i]? with
          | none =>
            exfalso
            rw [List.getElem?_eq_none_iff, ← hl, List.length_map] at ha
            have := (List.getElem?_eq_some_iff.1 hv).1
            omega
          | some a => rfl
      · intro v hv
        have hvm : v.id ∈ bound.map Var.id := List.mem_map_of_mem hv
        rw [← hθ v (by rw [List.map_append]; exact List.mem_append_right _ hvm)]
        have hout := renamed_outside bound (free ++ st.bound) hb _ (List.mem_map_of_mem hv)
        simp only [θ, Subst.chain, renSubst, Subst.apply]
        rw [zip_get_not hl (fun h => hout (by rw [List.map_append]; exact List.mem_append_left _ h))]
        simp only [Fm.eval]
        rw [← (C06_unchanged bound (free ++ st.bound) (sortConsistent_of_nodup hb) v hv).2]
        exact hd _ (List.mem_append_right _ (List.mem_map_of_mem hv))
    · rename_i c hk
      split at hu
      · exact leads_rec hsem hp hsub (.inr (.inr ⟨c, hk⟩)) (fun h => by rw [hk] at h; cases h) hu hm hτ
      · cases hu; cases hm
    · rename_i hk
      split at hu
      · rename_i hfl
        obtain ⟨h1, s, hs, arg, σ, rfl, h2, h3, h4⟩ := stepcase true (.inl hk) hfl hu
        refine ⟨h1, ?_⟩
        rw [h4]
        exact .msg hk hs h2 h3
      · cases hu; cases hm
    · rename_i hk
      split at hu
      · rename_i hfl
        obtain ⟨h1, s, hs, arg, σ, rfl, h2, h3, h4⟩ := stepcase false (.inr hk) hfl hu
        refine ⟨h1, ?_⟩
        rw [h4]
        exact .cond hk hs h2 h3
      · cases hu; cases hm
    · rename_i hk
      split at hu
      · exact leads_rec hsem hp hsub (.inl hk) (fun _ => rfl) hu hm hτ
      · cases hu; cases hm
    · rename_i hk
      split at hu
      · exact leads_rec hsem hp hsub (.inr (.inl hk)) (fun h => by rw [hk] at h; cases h) hu hm hτ
      · cases hu; cases hm
    · cases hu; cases hm
    · cases hu; cases hm

theorem leads_arg {L : Lang F} {steps : List (GStep F)} {t a : Fm F} (hq : NoQuant t) (ha : a ∈ t.args) (τ : Valn D) :
    Leads L steps cells M AnyPart timed (Fm.eval M τ t) (Fm.eval M τ a) := by
  cases hq with
  | var v => cases ha
  | app h =>
    simp only [Fm.args] at ha
    simp only [Fm.eval, evals_eq]
    exact .part (List.mem_map_of_mem ha)

theorem Digs.within (hdg : Digs C.A) {t a : Fm F} (hq : NoQuant t) (ha : a ∈ C.A.nexts t) (τ : Valn D) :
    Reaches C.L C.steps cells M AnyPart timed (Fm.eval M τ t) (Fm.eval M τ a) := by
  rcases hdg t a ha with h | ⟨b, hb, h⟩
  · exact .single (leads_arg hq h τ)
  · refine (Relation.ReflTransGen.single (leads_arg hq hb τ)).tail (leads_arg ?_ h τ)
    cases hq with
    | var v => cases hb
    | app hh => exact hh b hb

/-- What is visited is within a root. -/
theorem within_elem (hsem : Sem C.L M) (hp : ProtOK C.L C.steps cells)
    (hdg : ∀ t st a, Elem C fl roots t st → a ∈ C.A.nexts t → ∀ τ, Reaches C.L C.steps cells M vp timed (Fm.eval M τ t) (Fm.eval M τ a))
    (hsub : ∀ r anc, C.G.ancestors r = some anc → ∀ d ∈ anc.cells, d ∈ cells)
    (hinv : ∀ t st, Elem C fl roots t st → Inv outer t st) (hcl : NoClash C fl roots outer)
    {t : Fm F} {st : UState F} (he : Elem C fl roots t st) {τ : Valn D} (hτ : Meets M timed st τ) :
    ∃ r bv, (r, bv) ∈ roots ∧ InDom M bv τ ∧ Reaches C.L C.steps cells M vp timed (Fm.eval M τ r) (Fm.eval M τ t) := by
  induction he with
  | root h => exact ⟨_, _, h, hτ.dom, .refl⟩
  | @next t st a he ha ih =>
    obtain ⟨r, bv, h1, h2, h3⟩ := ih hτ
    refine ⟨r, bv, h1, h2, h3.trans ?_⟩
    exact hdg t st a he ha τ
  | @unfold t st l t' st' he hu hm ih =>
    obtain ⟨h4, h5⟩ := leads_unfold hsem hp hsub (hinv _ _ he).noQuant
      (fun f args e hk hfl => by subst e; exact hcl.step f args st he hk hfl) hu hm hτ
    obtain ⟨r, bv, h1, h2, h3⟩ := ih h4
    exact ⟨r, bv, h1, h2, h3.tail h5⟩

end

/-! ## Variables -/

section
variable [DecidableEq F]

theorem mguAux_again {v : Var} {nl : Fm F} {lp rp : MSubst F} (hg : rp.maybeGet v.id = some nl) (hnl : ∀ w, nl ≠ .var w) :
    ∀ n (l : Fm F), (∀ w, l ≠ .var w) → mguAux n l (.var v) lp rp = none := by
  intro n
  induction n with
  | zero => intro l _; rfl
  | succ n ih =>
    intro l hl
    unfold mguAux
    split
    · exact absurd rfl (hl _)
    · rename_i e
      cases e
      rw [hg]
      cases nl with
      | var w => exact absurd rfl (hnl w)
      | app f as => exact ih _ hnl
      | quant q vs b => exact ih _ hnl
    · rename_i e; cases e
    · rename_i h _; exact absurd rfl (h v)

theorem mguAll_small {n : Nat} (ih : ∀ (l r : Fm F) (lp rp : MSubst F) (b : Bool) (lp' rp' : MSubst F),
    mguAux n l r lp rp = some (b, lp', rp') →
      (∃ s, lp' = lp ++ s) ∧ ∃ s, rp' = rp ++ s ∧ (lp' = [] → ∀ p ∈ s, p.2.size ≤ l.size)) : ∀ as bs (lp rp : MSubst F) (b : Bool) (lp' rp' : MSubst F), mguAll (mguAux n) as bs lp rp = some (b, lp', rp') →
    (∃ s, lp' = lp ++ s) ∧ ∃ s, rp' = rp ++ s ∧ (lp' = [] → ∀ p ∈ s, p.2.size ≤ sizes as) := by
  intro as
  induction as with
  | nil =>
    intro bs lp rp b lp' rp' h
    simp only [mguAll, Option.some.injEq, Prod.mk.injEq] at h
    obtain ⟨_, rfl, rfl⟩ := h
    exact ⟨⟨[], by simp⟩, [], by simp, by simp⟩
  | cons a as iha =>
    intro bs lp rp b lp' rp' h
    cases bs with
    | nil =>
      simp only [mguAll, Option.some.injEq, Prod.mk.injEq] at h
      obtain ⟨_, rfl, rfl⟩ := h
      exact ⟨⟨[], by simp⟩, [], by simp, by simp⟩
    | cons c bs =>
      simp only [mguAll] at h
      split at h
      · rename_i lp1 rp1 h1
        obtain ⟨⟨s1, rfl⟩, s2, rfl, h2⟩ := ih _ _ _ _ _ _ _ h1
        obtain ⟨⟨s3, rfl⟩, s4, rfl, h4⟩ := iha _ _ _ _ _ _ h
        refine ⟨⟨s1 ++ s3, by simp⟩, s2 ++ s4, by simp, fun he p hp => ?_⟩
        simp only [sizes]
        rcases List.mem_append.1 hp with hp | hp
        · have := h2 (by simp at he ⊢; exact ⟨he.1, he.2.1⟩) p hp; omega
        · have := h4 he p hp; omega
      · obtain ⟨h1, s2, h2, h3⟩ := ih _ _ _ _ _ _ _ h
        refine ⟨h1, s2, h2, fun he p hp => ?_⟩
        simp only [sizes]
        have := h3 he p hp; omega

theorem mguAux_small : ∀ n (l r : Fm F) (lp rp : MSubst F) (b : Bool) (lp' rp' : MSubst F),
    mguAux n l r lp rp = some (b, lp', rp') →
      (∃ s, lp' = lp ++ s) ∧ ∃ s, rp' = rp ++ s ∧ (lp' = [] → ∀ p ∈ s, p.2.size ≤ l.size) := by
  intro n
  induction n with
  | zero => intro l r lp rp b lp' rp' h; cases h
  | succ n ih =>
    have all := mguAll_small (n := n) ih
    intro l r lp rp b lp' rp' h
    have triv : ∀ {b b' : Bool} {lp lp' rp rp' : MSubst F}, (some (b', lp, rp) : URes F) = some (b, lp', rp') →
        (∃ s, lp' = lp ++ s) ∧ ∃ s, rp' = rp ++ s ∧ (lp' = [] → ∀ p ∈ s, p.2.size ≤ l.size) := by
      intro b b' lp lp' rp rp' h
      simp only [Option.some.injEq, Prod.mk.injEq] at h
      obtain ⟨_, rfl, rfl⟩ := h
      exact ⟨⟨[], by simp⟩, [], by simp, by simp⟩
    have hne : ∀ {v : Nat} {t : Fm F}, lp.maybeGet v = some t → lp ≠ [] := by
      rintro v t h rfl
      simp [MSubst.maybeGet] at h
    unfold mguAux at h
    split at h
    · split at h
      · exact triv h
      split at h
      · rename_i hg
        split at h
        · split at h
          · exact triv h
          split at h
          · exact triv h
          · simp only [Option.some.injEq, Prod.mk.injEq] at h
            obtain ⟨_, rfl, rfl⟩ := h
            exact ⟨⟨[], by simp⟩, _, rfl, fun he => absurd he (hne hg)⟩
        · exact triv h
      · rename_i hg
        obtain ⟨⟨s1, rfl⟩, s2, rfl, h2⟩ := ih _ _ _ _ _ _ _ h
        refine ⟨⟨s1, rfl⟩, s2, rfl, fun he => absurd ?_ (hne hg)⟩
        simp at he; exact he.1
      · simp only [Option.some.injEq, Prod.mk.injEq] at h
        obtain ⟨_, rfl, rfl⟩ := h
        exact ⟨⟨_, rfl⟩, [], by simp, by simp⟩
    · rename_i hl
      split at h
      · exact triv h
      · rename_i hnl hg
        rw [mguAux_again hg hnl _ _ hnl] at h
        cases h
      · simp only [Option.some.injEq, Prod.mk.injEq] at h
        obtain ⟨_, rfl, rfl⟩ := h
        exact ⟨⟨[], by simp⟩, _, rfl, by simp⟩
    · split at h
      · obtain ⟨h1, s2, h2, h3⟩ := all _ _ _ _ _ _ _ h
        refine ⟨h1, s2, h2, fun he p hp => ?_⟩
        simp only [size]
        have := h3 he p hp; omega
      · exact triv h
    · exact triv h

/-- Two terms unify to a variable, bound to the first of them, only if the second is that variable. -/
theorem toVariable_var {n : Nat} {x t : Fm F} {u : Unif F} {v : Nat} (h : mgu n x t = some (some u))
    (hv : u.toVariable = some (v, x)) : (∃ w : Var, t = .var w ∧ w.id = v) ∧ ∀ w, x ≠ .var w := by
  have hu : u.left = [] ∧ u.right = [(v, x)] := by
    unfold Unif.toVariable at hv
    split at hv
    · rename_i hc
      obtain ⟨h1, h2⟩ := hc
      refine ⟨by simpa using h1, ?_⟩
      cases hr : u.right with
      | nil => rw [hr] at h2; cases h2
      | cons p ps =>
        rw [hr] at h2 hv
        simp only [List.head?_cons, Option.some.injEq] at hv
        simp only [List.length_cons, Nat.add_eq_right, List.length_eq_zero_iff] at h2
        rw [hv, h2]
    · cases hv
  unfold mgu at h
  rw [Option.map_eq_some_iff] at h
  obtain ⟨⟨b, lp, rp⟩, h1, h2⟩ := h
  cases b
  · simp at h2
  simp only [if_true, Option.some.injEq] at h2
  subst h2
  obtain ⟨rfl, rfl⟩ := hu
  cases n with
  | zero => cases h1
  | succ n =>
    unfold mguAux at h1
    split at h1
    · split at h1
      · cases h1
      · simp [MSubst.maybeGet, MSubst.add] at h1
    · rename_i hl
      simp [MSubst.maybeGet, MSubst.add] at h1
      subst h1
      exact ⟨⟨_, rfl, rfl⟩, fun w e => hl w e⟩
    · rename_i f as g bs
      split at h1
      · exfalso
        obtain ⟨_, s, h3, h4⟩ := mguAll_small (mguAux_small n) _ _ _ _ _ _ _ h1
        have := h4 rfl (v, .app f as) (by rw [List.nil_append] at h3; rw [← h3]; exact List.mem_singleton_self _)
        simp only [size] at this
        omega
      · simp at h1
    · simp at h1

end

/-! ## The results -/

section
variable [DecidableEq F] {C : SearchCfg F} {fl : Flags} {roots : List (Fm F × List Var)} {outer : Nat → Prop} {cells : List (GCell F)}
  {M : Str F D} {vp : F → List D → D → Prop}

/-- The formula of a result says that the term visited has the value searched for, or the predicate holds of it and it
is a variable. -/
theorem result_truth (hsem : Sem C.L M) {x t : Fm F} {st : UState F} {vs : List Var} {φ : Fm F}
    (h : some (vs, φ) ∈ visitResult C x t st) {τ : Valn D} (ht : M.truth (Fm.eval M τ φ)) :
    vs = st.bound ∧ C.A.unified C.L t = true ∧ (C.keepGuard = true → ∀ g, st.guard = some g → M.truth (Fm.eval M τ g)) ∧
      (Fm.eval M τ x = Fm.eval M τ t ∨
        (∃ w, t = .var w) ∧ (∀ w, x ≠ .var w) ∧ ∃ p, subFormula C.L C.sound C.sub x t = some p ∧ M.truth (Fm.eval M τ p)) := by
  unfold visitResult at h
  split at h
  · simp at h
  · cases h
  rename_i u hu
  split at h
  · simp at h
  rename_i g hg
  simp only [List.mem_singleton, Option.some.injEq, Prod.mk.injEq] at h
  obtain ⟨rfl, rfl⟩ := h
  simp only [Lang.ands, Fm.eval, evals_eq] at ht
  rw [hsem.and] at ht
  have ht : ∀ ψ ∈ g ++ (if C.keepGuard then st.guard.toList else []), M.truth (Fm.eval M τ ψ) :=
    fun ψ hψ => ht _ (List.mem_map_of_mem hψ)
  have hun : C.A.unified C.L t = true := by
    unfold unifierOf at hu
    split at hu
    · assumption
    · cases hu
  refine ⟨rfl, hun, fun hk g' hg' => ht g' (List.mem_append_right _ ?_), ?_⟩
  · rw [if_pos hk, hg']; exact List.mem_singleton_self _
  have ht : ∀ ψ ∈ g, M.truth (Fm.eval M τ ψ) := fun ψ hψ => ht ψ (List.mem_append_left _ hψ)
  have heqs : ∀ eqs, u.asEqualities = some eqs → eqFormulas C.L eqs = some g → SatEqs M τ eqs := by
    intro eqs _ h2 p hp
    obtain ⟨ψ, hψ, e⟩ := (mapM_some h2).1 p hp
    obtain ⟨s, _, rfl⟩ := Option.map_eq_some_iff.1 e
    have := ht _ hψ
    simp only [Lang.meq, Fm.eval, evals, hsem.eq] at this
    exact this
  have hE : (u.asEqualities).bind (eqFormulas C.L) = some g → Fm.eval M τ x = Fm.eval M τ t := by
    intro h
    obtain ⟨eqs, e1, e2⟩ := Option.bind_eq_some_iff.1 h
    have := heqs eqs e1 e2
    unfold unifierOf at hu
    rw [if_pos hun] at hu
    split at hu
    · rename_i v
      simp only [Option.some.injEq] at hu
      subst hu
      simp [Unif.oneVariable, Unif.asEqualities] at e1
      subst e1
      exact SatEqs.one.1 this
    · exact C07_equalities_sound M τ _ x t u eqs hu e1 this
  unfold unifGuard at hg
  split at hg
  · rename_i v f hv
    split at hg
    · rename_i hfx
      subst hfx
      obtain ⟨p, hp, rfl⟩ := Option.map_eq_some_iff.1 hg
      unfold unifierOf at hu
      rw [if_pos hun] at hu
      split at hu
      · simp only [Option.some.injEq] at hu
        subst hu
        simp [Unif.oneVariable, Unif.toVariable] at hv
      · obtain ⟨⟨w, h1, _⟩, h2⟩ := toVariable_var hu hv
        exact .inr ⟨⟨w, h1⟩, h2, p, hp, ht p (List.mem_singleton_self _)⟩
    · exact .inl (hE hg)
  · exact .inl (hE hg)

/-- **C66: what the search reports was computed by then.** If a result holds for some values of its variables, then some
value within a root — reached by looking inside terms and, from an input or a cell at a time, into what the protocol
has computed by that time — is that of the term searched for; or the term visited is a variable and the subterm
predicate holds of it. When guards are dropped (the search of keys) times do not count. -/
theorem C66_reported_partial (hsem : Sem C.L M) (hp : ProtOK C.L C.steps cells) (hsh : Shrinks C.A)
    (hdg : ∀ t st a, Elem C fl roots t st → a ∈ C.A.nexts t → ∀ τ,
      Reaches C.L C.steps cells M vp C.keepGuard (Fm.eval M τ t) (Fm.eval M τ a))
    (hsub : ∀ r anc, C.G.ancestors r = some anc → ∀ d ∈ anc.cells, d ∈ cells)
    (hr : ∀ t bv, (t, bv) ∈ roots → NoQuant t ∧ VarsIn outer bv t ∧ (bv.map Var.id).Nodup)
    (hcl : NoClash C fl roots outer) {x : Fm F} (hx : ∀ v ∈ x.vars, outer v.id) {fuel : Nat}
    {res : List (Option (List Var × Fm F))} (hs : search C fuel x fl roots = some res) {vs : List Var} {φ : Fm F}
    (hm : some (vs, φ) ∈ res) {ρ : Valn D} (ht : quantVal M .ex vs (fun τ => M.truth (Fm.eval M τ φ)) ρ) :
    ∃ r bv τ, (r, bv) ∈ roots ∧ InDom M bv τ ∧ (∀ i, outer i → τ i = ρ i) ∧ ∃ t, C.A.unified C.L t = true ∧
      Reaches C.L C.steps cells M vp C.keepGuard (Fm.eval M τ r) (Fm.eval M τ t) ∧
      (Fm.eval M τ t = Fm.eval M ρ x ∨
        (∃ w, t = .var w) ∧ (∀ w, x ≠ .var w) ∧ ∃ p, subFormula C.L C.sound C.sub x t = some p ∧ M.truth (Fm.eval M τ p)) := by
  obtain ⟨t, st, he, hv⟩ := search_from hs hm
  have hinv : ∀ t st, Elem C fl roots t st → Inv outer t st := fun t st he => inv_elem hp hsh hsub hr hcl he
  obtain ⟨rfl, _⟩ := result_vars (hinv t st he) hx hv
  obtain ⟨τ, hoff, hd, hφ⟩ := (quantVal_ex_iff M _ st.bound ρ (hinv t st he).nodup).1 ht
  obtain ⟨_, h2, h3, h4⟩ := result_truth hsem hv hφ
  obtain ⟨r, bv, h5, h6, h7⟩ := within_elem (timed := C.keepGuard) hsem hp hdg hsub hinv hcl he ⟨hd, h3⟩
  have ho : ∀ i, outer i → τ i = ρ i := by
    intro i hi
    refine hoff i (fun h => ?_)
    obtain ⟨v, hv, rfl⟩ := List.mem_map.1 h
    exact hcl.bound t st he v hv hi
  refine ⟨r, bv, τ, h5, h6, ho, t, h2, h7, ?_⟩
  rcases h4 with h4 | h4
  · refine .inl ?_
    rw [← h4]
    exact eval_agree_vars M x τ ρ (fun v hv => ho _ (hx v hv))
  · exact .inr h4


/-! ## Descending -/

omit [DecidableEq F] in
theorem default_digs (s : Srt) : Digs (Aux.default s : Aux F) := fun _ _ h => .inl h

theorem ufKey_digs (mac verify cast : F) : Digs (Aux.ufKey mac verify cast) := by
  intro t a h
  cases t with
  | var v => cases h
  | app f args =>
    refine .inl ?_
    simp only [Aux.ufKey] at h
    split at h
    · exact List.mem_of_mem_take h
    · split at h
      · exact List.mem_of_mem_take h
      · exact h
  | quant q vs b => exact .inl h

theorem ufMain_digs (L : Lang F) (eqTa mac verify : F) (hmac : Bool) : Digs (Aux.ufMain L eqTa mac verify hmac) := by
  intro t a h
  have two : ∀ b, b ∈ t.args → a ∈ macArgs mac b → a ∈ t.args ∨ ∃ b ∈ t.args, a ∈ b.args := by
    intro b hb ha
    obtain ⟨as, rfl, ha'⟩ := macArgs_sub ha
    exact .inr ⟨_, hb, ha'⟩
  cases t with
  | var v => cases h
  | app f args =>
    simp only [Aux.ufMain] at h
    split at h
    · split at h
      · rcases List.mem_append.1 h with h | h
        · exact .inl (List.mem_cons_of_mem _ h)
        · exact two _ (List.mem_cons_self ..) h
      · exact .inl h
    · split at h
      · split at h
        · split at h
          · exact .inl h
          · rcases List.mem_append.1 h with h | h
            · exact two _ (List.mem_cons_self ..) h
            · exact two _ (List.mem_cons_of_mem _ (List.mem_cons_self ..)) h
        · exact .inl h
      · exact .inl h
  | quant q vs b => exact .inl h

/-- The keys of `mac` and `verify` are written as casts. -/
def KeysWritten (mac verify cast : F) (t : Fm F) : Prop :=
  (∀ args, t = .app mac args → ∃ as, args[1]? = some (.app cast as)) ∧
  (∀ args, t = .app verify args → ∃ as, args[2]? = some (.app cast as))

theorem ufKey_part {L : Lang F} {steps : List (GStep F)} {timed : Bool} {mac verify cast : F} (hmv : mac ≠ verify) {t a : Fm F}
    (hq : NoQuant t) (hk : KeysWritten mac verify cast t) (ha : a ∈ (Aux.ufKey mac verify cast).nexts t) (τ : Valn D) :
    Leads L steps cells M (NotKey mac verify) timed (Fm.eval M τ t) (Fm.eval M τ a) := by
  cases hq with
  | var v => cases ha
  | @app f args h =>
    simp only [Fm.eval, evals_eq]
    refine .part ?_
    simp only [Aux.ufKey] at ha
    by_cases h1 : f = mac
    · subst h1
      obtain ⟨as, e⟩ := hk.1 args rfl
      rw [if_pos ⟨rfl, by simp [e, isApp]⟩] at ha
      refine .inr (.inl ⟨rfl, ?_⟩)
      rw [← List.map_take]
      exact List.mem_map_of_mem ha
    · by_cases h2 : f = verify
      · subst h2
        obtain ⟨as, e⟩ := hk.2 args rfl
        rw [if_neg (fun h => h1 h.1), if_pos ⟨rfl, by simp [e, isApp]⟩] at ha
        refine .inr (.inr ⟨rfl, ?_⟩)
        rw [← List.map_take]
        exact List.mem_map_of_mem ha
      · rw [if_neg (fun h => h1 h.1), if_neg (fun h => h2 h.1)] at ha
        exact .inl ⟨h1, h2, List.mem_map_of_mem ha⟩

/-- **C25: what is reported as misuse of a key is misuse.** With `C25_key_partial` this makes the check of keys
exact: if a result holds then the key searched for is, within a root, somewhere else than the key of a `mac` or
`verify`. `_partial`: for terms in which those keys are written as casts. -/
theorem C25_reported_partial (hsem : Sem C.L M) (hp : ProtOK C.L C.steps cells) {mac verify cast : F} (hmv : mac ≠ verify)
    (hA : C.A = Aux.ufKey mac verify cast)
    (hk : ∀ t st, Elem C fl roots t st → KeysWritten mac verify cast t)
    (hsub : ∀ r anc, C.G.ancestors r = some anc → ∀ d ∈ anc.cells, d ∈ cells)
    (hr : ∀ t bv, (t, bv) ∈ roots → NoQuant t ∧ VarsIn outer bv t ∧ (bv.map Var.id).Nodup)
    (hcl : NoClash C fl roots outer) {x : Fm F} (hx : ∀ v ∈ x.vars, outer v.id) {fuel : Nat}
    {res : List (Option (List Var × Fm F))} (hs : search C fuel x fl roots = some res) {vs : List Var} {φ : Fm F}
    (hm : some (vs, φ) ∈ res) {ρ : Valn D} (ht : quantVal M .ex vs (fun τ => M.truth (Fm.eval M τ φ)) ρ) :
    ∃ r bv τ, (r, bv) ∈ roots ∧ InDom M bv τ ∧ (∀ i, outer i → τ i = ρ i) ∧ ∃ t, C.A.unified C.L t = true ∧
      Reaches C.L C.steps cells M (NotKey mac verify) C.keepGuard (Fm.eval M τ r) (Fm.eval M τ t) ∧
      (Fm.eval M τ t = Fm.eval M ρ x ∨
        (∃ w, t = .var w) ∧ (∀ w, x ≠ .var w) ∧ ∃ p, subFormula C.L C.sound C.sub x t = some p ∧ M.truth (Fm.eval M τ p)) := by
  have hsh : Shrinks C.A := hA ▸ ufKey_shrinks _ _ _
  refine C66_reported_partial hsem hp hsh (fun t st a he ha τ => .single ?_) hsub hr hcl hx hs hm ht
  exact ufKey_part hmv (inv_elem hp hsh hsub hr hcl he).noQuant (hk t st he) (hA ▸ ha) τ

end
end Dep
end CV
