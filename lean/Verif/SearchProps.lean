import Verif.SearchSpec
import Verif.Piles
import Verif.SubstProps
set_option linter.unusedSimpArgs false
/-
What the search of `Verif/Search.lean` visits.
-/
namespace CV
namespace Dep
open Fm
variable {F D : Type}

/-! ### Renaming -/

theorem getVar_id_congr (r : List (Nat × Var)) (v w : Var) (h : v.id = w.id) : (getVar r v).id = (getVar r w).id := by
  unfold getVar
  rw [h]
  cases r.find? (fun p => p.1 == w.id) with
  | none => simpa using h
  | some p => rfl

theorem sortConsistent_of_nodup {vs : List Var} (h : (vs.map Var.id).Nodup) : SortConsistent vs := by
  induction vs with
  | nil => intro v hv; cases hv
  | cons a vs ih =>
    simp only [List.map_cons, List.nodup_cons, List.mem_map, not_exists, not_and] at h
    intro v hv w hw e
    rcases List.mem_cons.1 hv with rfl | hv' <;> rcases List.mem_cons.1 hw with rfl | hw'
    · rfl
    · exact absurd e.symm (h.1 w hw')
    · exact absurd e (h.1 v hv')
    · exact ih h.2 v hv' w hw' e

theorem nodup_map_of_inj {α β : Type} {f : α → β} {l : List α} (hn : l.Nodup)
    (h : ∀ a ∈ l, ∀ b ∈ l, a ≠ b → f a ≠ f b) : (l.map f).Nodup := by
  induction l with
  | nil => simp
  | cons a l ih =>
    simp only [List.nodup_cons] at hn
    simp only [List.map_cons, List.nodup_cons, List.mem_map, not_exists, not_and]
    refine ⟨fun b hb e => ?_, ih hn.2 (fun a ha b hb => h a (List.mem_cons_of_mem _ ha) b (List.mem_cons_of_mem _ hb))⟩
    refine h b (List.mem_cons_of_mem _ hb) a (List.mem_cons_self ..) ?_ e
    rintro rfl
    exact hn.1 hb

theorem renamed_nodup (vs base : List Var) (h : (vs.map Var.id).Nodup) :
    ((vs.map (getVar (collisionAvoiding vs base))).map Var.id).Nodup := by
  rw [List.map_map]
  have hs := sortConsistent_of_nodup h
  refine nodup_map_of_inj (List.Pairwise.of_map Var.id (fun a b hab e => hab (by rw [e])) h) ?_
  intro v hv w hw hne
  exact C06_injective vs base hs v w hv hw (fun e => hne (hs v hv w hw e))

theorem renamed_outside (vs base : List Var) (h : (vs.map Var.id).Nodup) :
    ∀ v ∈ vs.map (getVar (collisionAvoiding vs base)), v.id ∉ base.map Var.id := by
  intro v hv
  obtain ⟨w, hw, rfl⟩ := List.mem_map.1 hv
  exact C06_outside_base vs base (sortConsistent_of_nodup h) w hw

theorem renamed_mem {vs : List Var} (base : List Var) {v : Var} (h : v.id ∈ vs.map Var.id) :
    (getVar (collisionAvoiding vs base) v).id ∈ (vs.map (getVar (collisionAvoiding vs base))).map Var.id := by
  obtain ⟨w, hw, e⟩ := List.mem_map.1 h
  rw [← getVar_id_congr _ w v e]
  exact List.mem_map_of_mem (List.mem_map_of_mem hw)

open Classical in
/-- Values for the renamed variables. -/
theorem bind_exists (M : Str F D) (vs base : List Var) (hn : (vs.map Var.id).Nodup) (τ σ : Valn D) (hd : InDom M vs σ) :
    ∃ τ' : Valn D, (∀ i, i ∉ (vs.map (getVar (collisionAvoiding vs base))).map Var.id → τ' i = τ i) ∧
      (∀ v : Var, v.id ∈ vs.map Var.id → τ' (getVar (collisionAvoiding vs base) v).id = σ v.id) ∧
      InDom M (vs.map (getVar (collisionAvoiding vs base))) τ' := by
  generalize hr : collisionAvoiding vs base = r
  have hs := sortConsistent_of_nodup hn
  have inj : ∀ v ∈ vs, ∀ w ∈ vs, (getVar r v).id = (getVar r w).id → v = w := by
    intro v hv w hw e
    by_cases hid : v.id = w.id
    · exact hs v hv w hw hid
    · rw [← hr] at e; exact absurd e (C06_injective vs base hs v w hv hw hid)
  let τ' : Valn D := fun i => if h : ∃ v ∈ vs, (getVar r v).id = i then σ h.choose.id else τ i
  have key : ∀ v ∈ vs, τ' (getVar r v).id = σ v.id := by
    intro v hv
    have hex : ∃ w ∈ vs, (getVar r w).id = (getVar r v).id := ⟨v, hv, rfl⟩
    simp only [τ', dif_pos hex]
    rw [inj _ hex.choose_spec.1 v hv hex.choose_spec.2]
  refine ⟨τ', ?_, ?_, ?_⟩
  · intro i hi
    have : ¬ ∃ v ∈ vs, (getVar r v).id = i := by
      rintro ⟨v, hv, rfl⟩
      exact hi (List.mem_map_of_mem (List.mem_map_of_mem hv))
    simp only [τ', dif_neg this]
  · intro v hv
    obtain ⟨w, hw, e⟩ := List.mem_map.1 hv
    rw [← getVar_id_congr r w v e, key w hw, e]
  · intro v hv
    obtain ⟨w, hw, rfl⟩ := List.mem_map.1 hv
    rw [key w hw]
    have := (C06_unchanged vs base hs w hw).2
    rw [hr] at this
    rw [this]
    exact hd w hw

/-! ### Small facts on terms -/

theorem _root_.CV.NoQuant.bound {t : Fm F} (h : NoQuant t) : t.bound = [] := by
  induction h with
  | var v => rfl
  | @app f args _ ih =>
    simp only [Fm.bound, bounds_eq]
    rw [List.flatMap_eq_nil_iff]
    exact ih

theorem _root_.CV.NoQuant.noCapture {t : Fm F} (h : NoQuant t) (s : Subst F) : NoCapture s t := by
  intro x hx; rw [h.bound] at hx; cases hx

theorem _root_.CV.NoQuant.apply {t : Fm F} (h : NoQuant t) {s : Subst F} (hs : ∀ v ∈ t.vars, NoQuant (s v)) :
    NoQuant (s.apply t) := by
  induction h with
  | var v => exact hs v (by simp [vars])
  | @app f args _ ih =>
    simp only [Subst.apply, Subst.applys_eq]
    refine .app ?_
    intro a ha
    obtain ⟨b, hb, rfl⟩ := List.mem_map.1 ha
    exact ih b hb (fun v hv => hs v (by simp only [vars, varss_eq, List.mem_flatMap]; exact ⟨b, hb, hv⟩))

theorem _root_.CV.NoQuant.of_apply {s : Subst F} {t : Fm F} (h : NoQuant (s.apply t)) : NoQuant t := by
  induction t using Fm.ind with
  | hvar v => exact .var v
  | happ f args ih =>
    simp only [Subst.apply, Subst.applys_eq] at h
    cases h with
    | app ha => exact .app (fun a hm => ih a hm (ha _ (List.mem_map_of_mem hm)))
  | hquant q vs b _ => simp only [Subst.apply] at h; cases h

theorem _root_.CV.NoQuant.arg {f : F} {args : List (Fm F)} (h : NoQuant (.app f args)) {a : Fm F} (ha : a ∈ args) : NoQuant a := by
  cases h with
  | app h => exact h a ha

theorem mem_vars_apply {s : Subst F} {t : Fm F} {v : Var} (h : v ∈ (s.apply t).vars) : ∃ w ∈ t.vars, v ∈ (s w).vars := by
  induction t using Fm.ind with
  | hvar w => exact ⟨w, by simp [vars], h⟩
  | happ f args ih =>
    simp only [Subst.apply, Subst.applys_eq, vars, varss_eq, List.mem_flatMap] at h ⊢
    obtain ⟨a, ha, hv⟩ := h
    obtain ⟨b, hb, rfl⟩ := List.mem_map.1 ha
    obtain ⟨w, hw, hv⟩ := ih b hb hv
    exact ⟨w, ⟨b, hb, hw⟩, hv⟩
  | hquant q vs b ih => simp only [Subst.apply, vars] at h ⊢; exact ih h

theorem vars_arg {f : F} {args : List (Fm F)} {a : Fm F} (ha : a ∈ args) {v : Var} (hv : v ∈ a.vars) :
    v ∈ (Fm.app f args).vars := by
  simp only [vars, varss_eq, List.mem_flatMap]; exact ⟨a, ha, hv⟩

theorem mapM_some {α β : Type} {f : α → Option β} : ∀ {l : List α} {r : List β}, l.mapM f = some r →
    (∀ a ∈ l, ∃ b ∈ r, f a = some b) ∧ ∀ b ∈ r, ∃ a ∈ l, f a = some b := by
  intro l
  induction l with
  | nil => intro r h; simp at h; subst h; simp
  | cons a l ih =>
    intro r h
    rw [List.mapM_cons] at h
    cases ha : f a with
    | none => simp [ha] at h
    | some b =>
      cases hl : l.mapM f with
      | none => simp [ha, hl] at h
      | some bs =>
        simp [ha, hl] at h
        subst h
        obtain ⟨h1, h2⟩ := ih hl
        constructor
        · intro x hx
          rcases List.mem_cons.1 hx with rfl | hx
          · exact ⟨b, List.mem_cons_self .., ha⟩
          · obtain ⟨y, hy, e⟩ := h1 x hx
            exact ⟨y, List.mem_cons_of_mem _ hy, e⟩
        · intro y hy
          rcases List.mem_cons.1 hy with rfl | hy
          · exact ⟨a, List.mem_cons_self .., ha⟩
          · obtain ⟨x, hx, e⟩ := h2 y hy
            exact ⟨x, List.mem_cons_of_mem _ hx, e⟩

theorem zip_get {ids : List Nat} {args : List (Fm F)} (hl : ids.length = args.length) {z : Var} (h : z.id ∈ ids) :
    ∃ i : Nat, ids[i]? = some z.id ∧ args[i]? = some (MSubst.get (ids.zip args) z) := by
  induction ids generalizing args with
  | nil => cases h
  | cons j ids ih =>
    cases args with
    | nil => simp at hl
    | cons t args =>
      by_cases hj : j = z.id
      · exact ⟨0, by simp [hj], by simp [MSubst.get, MSubst.maybeGet, hj]⟩
      · have h' : z.id ∈ ids := by
          rcases List.mem_cons.1 h with h | h
          · exact absurd h.symm hj
          · exact h
        obtain ⟨i, h1, h2⟩ := ih (by simpa using hl) h'
        have hj' : (j == z.id) = false := by simp [hj]
        exact ⟨i + 1, by simpa using h1, by simpa [MSubst.get, MSubst.maybeGet, hj'] using h2⟩

theorem zip_get_not {ids : List Nat} {args : List (Fm F)} (_ : ids.length = args.length) {z : Var} (h : z.id ∉ ids) :
    MSubst.get (ids.zip args) z = .var z := by
  apply C03_no_match
  intro h'
  obtain ⟨p, hp, e⟩ := List.mem_map.1 h'
  exact h (e ▸ (List.of_mem_zip hp).1)

/-! ### What is visited -/

/-- The terms visited by a search, with the state of their visit. -/
inductive Elem (C : SearchCfg F) (fl : Flags) (roots : List (Fm F × List Var)) : Fm F → UState F → Prop
  | root {t bv} (h : (t, bv) ∈ roots) : Elem C fl roots t ⟨fl, bv, none⟩
  | unfold {t st l t' st'} (h : Elem C fl roots t st) (hu : unfold C.L C.steps C.G t st = some l) (hm : (t', st') ∈ l) :
      Elem C fl roots t' st'
  | next {t st a} (h : Elem C fl roots t st) (ha : a ∈ C.A.nexts t) : Elem C fl roots a st

/-- A search that ends without panic has unfolded every visited term and reported every unifier. -/
theorem search_elem [DecidableEq F] (C : SearchCfg F) (fuel : Nat) (x : Fm F) (fl : Flags) (roots : List (Fm F × List Var))
    (res : List (Option (List Var × Fm F))) (h : search C fuel x fl roots = some res) (hn : none ∉ res)
    {t : Fm F} {st : UState F} (he : Elem C fl roots t st) :
    (∃ l, unfold C.L C.steps C.G t st = some l) ∧ ∀ r ∈ visitResult C x t st, r ∈ res := by
  have key : ∀ t st, Elem C fl roots t st → (∃ l, unfold C.L C.steps C.G t st = some l) ∧
      ∀ u, Reach (searchIter C x) t st u → u ∈ res := by
    have fin : ∀ t st, (∀ u, Reach (searchIter C x) t st u → u ∈ res) → ∃ l, unfold C.L C.steps C.G t st = some l := by
      intro t st hr
      cases hu : unfold C.L C.steps C.G t st with
      | some l => exact ⟨l, rfl⟩
      | none =>
        exact absurd (hr none (.res (by simp [searchIter, searchVisit, hu]))) hn
    intro t st he
    induction he with
    | @root t bv hm =>
      have : ∀ u, Reach (searchIter C x) t ⟨fl, bv, none⟩ u → u ∈ res := by
        intro u hu
        rw [runPile_mem (searchIter C x) u fuel _ res h]
        exact ⟨.next t ⟨fl, bv, none⟩, by simpa using hm, hu⟩
      exact ⟨fin _ _ this, this⟩
    | @unfold t st l t' st' _ hu hm ih =>
      have : ∀ u, Reach (searchIter C x) t' st' u → u ∈ res := by
        intro u hr
        refine ih.2 u (.step (g := t') (q := st') ?_ hr)
        simp only [searchIter, searchVisit, hu]
        simp only [List.mem_append]
        exact .inl (.inl (List.mem_map.2 ⟨(t', st'), hm, rfl⟩))
      exact ⟨fin _ _ this, this⟩
    | @next t st a _ ha ih =>
      have : ∀ u, Reach (searchIter C x) a st u → u ∈ res := by
        intro u hr
        refine ih.2 u (.step (g := a) (q := st) ?_ hr)
        simp only [searchIter, searchVisit, List.mem_append]
        exact .inr (List.mem_map.2 ⟨a, ha, rfl⟩)
      exact ⟨fin _ _ this, this⟩
  obtain ⟨h1, h2⟩ := key t st he
  refine ⟨h1, fun r hr => h2 r (.res ?_)⟩
  simp only [searchIter, searchVisit, List.mem_append]
  exact .inl (.inr (List.mem_map.2 ⟨r, hr, rfl⟩))

/-- The numbers of a term are bound by the state or outer ones. -/
def VarsIn (outer : Nat → Prop) (bound : List Var) (t : Fm F) : Prop := ∀ v ∈ t.vars, v.id ∈ bound.map Var.id ∨ outer v.id

structure Inv (outer : Nat → Prop) (t : Fm F) (st : UState F) : Prop where
  noQuant : NoQuant t
  vars : VarsIn outer st.bound t
  guard : ∀ g, st.guard = some g → VarsIn outer st.bound g
  nodup : (st.bound.map Var.id).Nodup

/-- No variable given to a state is one of the outer ones, and the parameters of the steps are free where the
message or the condition of a time point is looked into. -/
structure NoClash (C : SearchCfg F) (fl : Flags) (roots : List (Fm F × List Var)) (outer : Nat → Prop) : Prop where
  bound : ∀ t st, Elem C fl roots t st → ∀ v ∈ st.bound, ¬ outer v.id
  step : ∀ f args st, Elem C fl roots (.app f args) st → (C.L.kind f = .mac .msg ∨ C.L.kind f = .mac .cond) → st.flags.stepMac = true →
    ∀ s ∈ C.steps, ∀ v ∈ s.vars, v.id ∉ st.bound.map Var.id

theorem VarsIn.mono {outer : Nat → Prop} {b : List Var} {t : Fm F} (h : VarsIn outer b t) (nv : List Var) :
    VarsIn outer (b ++ nv) t := by
  intro v hv
  rcases h v hv with h | h
  · exact .inl (by rw [List.map_append]; exact List.mem_append_left _ h)
  · exact .inr h

theorem VarsIn.arg {outer : Nat → Prop} {b : List Var} {f : F} {args : List (Fm F)} (h : VarsIn outer b (.app f args))
    {a : Fm F} (ha : a ∈ args) : VarsIn outer b a := fun v hv => h v (vars_arg ha hv)

theorem VarsIn.app {outer : Nat → Prop} {b : List Var} {f : F} {args : List (Fm F)} (h : ∀ a ∈ args, VarsIn outer b a) :
    VarsIn outer b (.app f args) := by
  intro v hv
  simp only [Fm.vars, varss_eq, List.mem_flatMap] at hv
  obtain ⟨a, ha, hv⟩ := hv
  exact h a ha v hv

theorem addVariables_some {st st' : UState F} {nv : List Var} (h : st.addVariables nv = some st') :
    st'.flags = st.flags ∧ st'.bound = st.bound ++ nv ∧ st'.guard = st.guard := by
  unfold UState.addVariables at h
  split at h
  · cases h; exact ⟨rfl, rfl, rfl⟩
  · cases h

theorem addCondition_some {L : Lang F} {st st' : UState F} {nv : List Var} {c : Fm F}
    (h : st.addCondition L nv c = some st') :
    st'.flags = st.flags ∧ st'.bound = st.bound ++ nv ∧
      (st.guard = none ∧ st'.guard = some c ∨ ∃ g, st.guard = some g ∧ st'.guard = some (L.ands [g, c])) := by
  unfold UState.addCondition at h
  simp only [Option.map_eq_some_iff] at h
  obtain ⟨n, hn, rfl⟩ := h
  obtain ⟨h1, h2, h3⟩ := addVariables_some hn
  refine ⟨h1, h2, ?_⟩
  cases hg : st.guard with
  | none => left; simp [h3, hg]
  | some g => right; exact ⟨g, rfl, by simp [h3, hg]⟩

theorem nodup_append_ids {a b : List Var} (ha : (a.map Var.id).Nodup) (hb : (b.map Var.id).Nodup)
    (hd : ∀ v ∈ b, v.id ∉ a.map Var.id) : ((a ++ b).map Var.id).Nodup := by
  rw [List.map_append, List.nodup_append]
  refine ⟨ha, hb, ?_⟩
  intro i hi j hj e
  obtain ⟨v, hv, rfl⟩ := List.mem_map.1 hj
  exact hd v hv (e ▸ hi)

/-- The invariant after adding variables and a condition. -/
theorem Inv.addCondition {L : Lang F} {outer : Nat → Prop} {t t' : Fm F} {st st' : UState F} {nv : List Var} {c : Fm F}
    (hi : Inv outer t st) (h : st.addCondition L nv c = some st') (hn : (nv.map Var.id).Nodup)
    (hd : ∀ v ∈ nv, v.id ∉ st.bound.map Var.id) (hq : NoQuant t') (hv : VarsIn outer (st.bound ++ nv) t')
    (hc : VarsIn outer (st.bound ++ nv) c) : Inv outer t' st' := by
  obtain ⟨_, h2, h3⟩ := addCondition_some h
  refine ⟨hq, by rw [h2]; exact hv, ?_, by rw [h2]; exact nodup_append_ids hi.nodup hn hd⟩
  intro g' hg'
  rw [h2]
  rcases h3 with ⟨_, h3⟩ | ⟨g, hg, h3⟩
  · rw [h3] at hg'; cases hg'; exact hc
  · rw [h3] at hg'; cases hg'
    refine VarsIn.app ?_
    intro a ha
    simp only [List.mem_cons, List.not_mem_nil, or_false] at ha
    rcases ha with ha | ha
    · rw [ha]; exact (hi.guard g hg).mono nv
    · rw [ha]; exact hc

theorem varsIn_ren {outer : Nat → Prop} {vs base : List Var} {t : Fm F} (h : ∀ v ∈ t.vars, v.id ∈ vs.map Var.id) :
    VarsIn outer (base ++ vs.map (getVar (collisionAvoiding vs base))) (Subst.apply (renSubst (collisionAvoiding vs base)) t) := by
  intro v hv
  obtain ⟨w, hw, hv⟩ := mem_vars_apply hv
  simp only [renSubst, Fm.vars, List.mem_singleton] at hv
  subst hv
  exact .inl (by rw [List.map_append]; exact List.mem_append_right _ (renamed_mem base (h w hw)))

theorem noQuant_ren {t : Fm F} (h : NoQuant t) (r : List (Nat × Var)) : NoQuant (Subst.apply (renSubst r) t) :=
  h.apply (fun _ _ => .var _)

theorem varsIn_step {outer : Nat → Prop} {vs ws base : List Var} (f : F) (h : ∀ v ∈ ws, v.id ∈ vs.map Var.id) :
    VarsIn outer (base ++ vs.map (getVar (collisionAvoiding vs base)))
      (.app f (ws.map (renSubst (collisionAvoiding vs base)))) := by
  refine VarsIn.app ?_
  intro a ha
  obtain ⟨w, hw, rfl⟩ := List.mem_map.1 ha
  intro v hv
  simp only [renSubst, Fm.vars, List.mem_singleton] at hv
  subst hv
  exact .inl (by rw [List.map_append]; exact List.mem_append_right _ (renamed_mem base (h w hw)))

theorem varsIn_before {outer : Nat → Prop} {L : Lang F} {b : List Var} {x y : Fm F} (hx : VarsIn outer b x) (hy : VarsIn outer b y)
    (strict : Bool) : VarsIn outer b (if strict then L.strictBefore x y else L.before x y) := by
  have h1 : VarsIn outer b (L.strictBefore x y) := VarsIn.app (by
    intro a ha
    simp only [List.mem_cons, List.not_mem_nil, or_false] at ha
    rcases ha with rfl | rfl <;> assumption)
  cases strict with
  | true => exact h1
  | false =>
    refine VarsIn.app ?_
    intro a ha
    simp only [List.mem_cons, List.not_mem_nil, or_false] at ha
    rcases ha with rfl | rfl
    · exact h1
    · refine VarsIn.app ?_
      intro a ha
      simp only [List.mem_cons, List.not_mem_nil, or_false] at ha
      rcases ha with rfl | rfl <;> assumption

section prot
variable {C : SearchCfg F} {cells : List (GCell F)} (hp : ProtOK C.L C.steps cells)
include hp

theorem inv_assign {outer : Nat → Prop} {t o t' : Fm F} {st st' : UState F} (hi : Inv outer t st) (ho : VarsIn outer st.bound o)
    {c : GCell F} (hc : c ∈ cells) {a : GAssign F} (ha : a ∈ c.assigns) {b : Bool}
    (h : unfoldAssign C.L b o st a = some (t', st')) : Inv outer t' st' := by
  unfold unfoldAssign at h
  simp only [Option.map_eq_some_iff, Prod.mk.injEq] at h
  obtain ⟨st'', hst, rfl, rfl⟩ := h
  have hn := hp.fresh c hc a ha
  refine hi.addCondition hst (renamed_nodup _ _ hn) (renamed_outside _ _ hn) (noQuant_ren (hp.content c hc a ha).1 _)
    (varsIn_ren (hp.content c hc a ha).2) (varsIn_before (varsIn_step _ ?_) (ho.mono _) b)
  intro v hv
  exact List.mem_map_of_mem (List.mem_append_left _ hv)

theorem inv_step {outer : Nat → Prop} {t o t' : Fm F} {st st' : UState F} (hi : Inv outer t st) (ho : VarsIn outer st.bound o)
    {s : GStep F} (hs : s ∈ C.steps) {l : List (Fm F × UState F)} (h : unfoldStep C.L o st s = some l)
    (hm : (t', st') ∈ l) : Inv outer t' st' := by
  unfold unfoldStep at h
  simp only [Option.map_eq_some_iff] at h
  obtain ⟨st'', hst, rfl⟩ := h
  have hn := hp.params s hs
  have hc := varsIn_before (outer := outer) (L := C.L) (varsIn_step (vs := s.vars) (ws := s.vars) (base := st.bound) s.fn
    (fun v hv => List.mem_map_of_mem hv)) (ho.mono _) true
  simp only [List.mem_cons, List.not_mem_nil, or_false, Prod.mk.injEq] at hm
  rcases hm with ⟨rfl, rfl⟩ | ⟨rfl, rfl⟩
  · exact hi.addCondition hst (renamed_nodup _ _ hn) (renamed_outside _ _ hn) (noQuant_ren (hp.message s hs).1 _)
      (varsIn_ren (hp.message s hs).2) hc
  · exact hi.addCondition hst (renamed_nodup _ _ hn) (renamed_outside _ _ hn) (noQuant_ren (hp.condition s hs).1 _)
      (varsIn_ren (hp.condition s hs).2) hc

theorem inv_rec (hG : ∀ r anc, C.G.ancestors r = some anc → ∀ d ∈ anc.cells, d ∈ cells)
    {outer : Nat → Prop} {f : F} {args : List (Fm F)} {st st' : UState F} {t' : Fm F} (hi : Inv outer (.app f args) st)
    {r : MacroRef F} {l : List (Fm F × UState F)} (h : unfoldCellOrInput C.L C.steps C.G r st args = some l)
    (hm : (t', st') ∈ l) : Inv outer t' st' := by
  unfold unfoldCellOrInput at h
  split at h
  · rename_i anc origin hanc horig
    have ho : VarsIn outer st.bound origin := hi.vars.arg (List.mem_of_getLast? horig)
    split at h
    · rename_i cs is hcs his
      cases h
      rcases List.mem_append.1 hm with hm | hm
      · obtain ⟨a, ha, e⟩ := (mapM_some hcs).2 _ hm
        obtain ⟨d, hd, ha⟩ := List.mem_flatMap.1 ha
        exact inv_assign hp hi ho (hG r anc hanc d hd) ha e
      · obtain ⟨y, hy, hm⟩ := List.mem_flatten.1 hm
        split at his
        · obtain ⟨s, hs, e⟩ := (mapM_some his).2 _ hy
          exact inv_step hp hi ho hs e hm
        · cases his; cases hy
    · cases h
  · cases h

theorem inv_elem {fl : Flags} {roots : List (Fm F × List Var)} {outer : Nat → Prop} (hsh : Shrinks C.A)
    (hG : ∀ r anc, C.G.ancestors r = some anc → ∀ d ∈ anc.cells, d ∈ cells)
    (hr : ∀ t bv, (t, bv) ∈ roots → NoQuant t ∧ VarsIn outer bv t ∧ (bv.map Var.id).Nodup)
    (hcl : NoClash C fl roots outer) {t : Fm F} {st : UState F} (he : Elem C fl roots t st) : Inv outer t st := by
  induction he with
  | root h =>
    obtain ⟨h1, h2, h3⟩ := hr _ _ h
    exact ⟨h1, h2, (fun g hg => by cases hg), h3⟩
  | @next t st a he ha ih =>
    obtain ⟨h1, h2⟩ := hsh _ _ ha
    exact ⟨h1 ih.noQuant, fun v hv => ih.vars v (h2 v hv), ih.guard, ih.nodup⟩
  | @unfold t st l t' st' he hu hm ih =>
    have flagless : ∀ fl', Inv outer t { st with flags := fl' } := fun fl' => ⟨ih.noQuant, ih.vars, ih.guard, ih.nodup⟩
    cases t with
    | var v => simp [unfold] at hu; subst hu; cases hm
    | quant q vs b => cases ih.noQuant
    | app f args =>
      have stepcase : ∀ msg, (C.L.kind f = .mac .msg ∨ C.L.kind f = .mac .cond) → st.flags.stepMac = true →
          unfoldStepMacro C.L C.steps msg args st = some l → Inv outer t' st' := by
        intro msg hk hfl hu
        have hns := hcl.step f args st he hk hfl
        unfold unfoldStepMacro at hu
        split at hu
        · rename_i arg
          obtain ⟨s, hs, e⟩ := (mapM_some hu).2 _ hm
          simp only [Option.map_eq_some_iff, Prod.mk.injEq] at e
          obtain ⟨st'', hst, rfl, rfl⟩ := e
          have hid : s.vars.map (getVar (collisionAvoiding s.vars st.bound)) = s.vars := by
            conv => rhs; rw [← List.map_id s.vars]
            apply List.map_congr_left
            intro v hv
            exact (C06_unchanged _ _ (sortConsistent_of_nodup (hp.params s hs)) v hv).1 (hns s hs v hv)
          rw [hid] at hst
          have hcv : ∀ t : Fm F, (∀ v ∈ t.vars, v.id ∈ s.vars.map Var.id) → VarsIn outer (st.bound ++ s.vars) t := by
            intro t h v hv
            exact .inl (by rw [List.map_append]; exact List.mem_append_right _ (h v hv))
          refine ih.addCondition hst (hp.params s hs) (hns s hs) ?_ ?_ ?_
          · cases msg
            · exact (hp.condition s hs).1
            · exact (hp.message s hs).1
          · cases msg
            · exact hcv _ (hp.condition s hs).2
            · exact hcv _ (hp.message s hs).2
          · refine VarsIn.app ?_
            intro a ha
            simp only [List.mem_cons, List.not_mem_nil, or_false] at ha
            rcases ha with rfl | rfl
            · exact (ih.vars.arg (List.mem_singleton_self _)).mono _
            · refine hcv _ ?_
              intro v hv
              simp only [Fm.vars, varss_eq, List.mem_flatMap] at hv
              obtain ⟨a, ha, hv⟩ := hv
              obtain ⟨w, hw, rfl⟩ := List.mem_map.1 ha
              simp only [Fm.vars, List.mem_singleton] at hv
              subst hv
              exact List.mem_map_of_mem hw
        · cases hu
      simp only [unfold] at hu
      split at hu
      · rename_i bound free content hk
        split at hu
        · obtain ⟨hnd, hct⟩ := hp.taq f bound free content hk
          unfold unfoldQuantifier at hu
          split at hu
          · cases hu
          · rename_i fs hfs
            simp only [Option.map_eq_some_iff] at hu
            obtain ⟨st'', hst, rfl⟩ := hu
            obtain ⟨c, hc, e⟩ := List.mem_map.1 hm
            simp only [Prod.mk.injEq] at e
            obtain ⟨rfl, rfl⟩ := e
            obtain ⟨h1, h2, h3⟩ := addVariables_some hst
            have hl : (free.map Var.id).length = args.length ∧ fs = ⟨free.map Var.id, args⟩ := by
              unfold FrozenSubst.newFrom at hfs
              split at hfs
              · rename_i h; cases hfs; exact ⟨h, rfl⟩
              · cases hfs
            obtain ⟨hl, rfl⟩ := hl
            have hb : (bound.map Var.id).Nodup := by
              rw [List.map_append, List.nodup_append] at hnd; exact hnd.2.1
            refine ⟨?_, ?_, ?_, ?_⟩
            · refine (noQuant_ren (hct c hc).1 _).apply ?_
              intro w _
              by_cases hw : w.id ∈ free.map Var.id
              · obtain ⟨i, _, h5⟩ := zip_get hl hw
                exact ih.noQuant.arg (List.mem_of_getElem? h5)
              · rw [zip_get_not hl hw]; exact .var _
            · rw [h2]
              intro v hv
              obtain ⟨w, hw, hv⟩ := mem_vars_apply hv
              obtain ⟨z, hz, hw⟩ := mem_vars_apply hw
              simp only [renSubst, Fm.vars, List.mem_singleton] at hw
              subst hw
              by_cases hwf : (getVar (collisionAvoiding bound (free ++ st.bound)) z).id ∈ free.map Var.id
              · obtain ⟨i, _, h5⟩ := zip_get hl hwf
                exact ((ih.vars.arg (List.mem_of_getElem? h5)).mono _) v hv
              · rw [zip_get_not hl hwf] at hv
                simp only [Fm.vars, List.mem_singleton] at hv
                subst hv
                have hzb : z.id ∈ bound.map Var.id := by
                  have := (hct c hc).2 z hz
                  rw [List.map_append] at this
                  rcases List.mem_append.1 this with h | h
                  · refine absurd ?_ hwf
                    have hzb : z.id ∉ bound.map Var.id := by
                      intro h'
                      rw [List.map_append, List.nodup_append] at hnd
                      exact hnd.2.2 _ h _ h' rfl
                    rw [C06_others_unchanged _ _ _ hzb]; exact h
                  · exact h
                refine .inl ?_
                rw [List.map_append]
                exact List.mem_append_right _ (renamed_mem _ hzb)
            · intro g hg; rw [h3] at hg; rw [h2]; exact (ih.guard g hg).mono _
            · rw [h2]
              refine nodup_append_ids ih.nodup (renamed_nodup _ _ hb) ?_
              intro v hv h'
              refine renamed_outside bound (free ++ st.bound) hb v hv ?_
              rw [List.map_append]; exact List.mem_append_right _ h'
        · cases hu; cases hm
      · split at hu
        · exact inv_rec hp hG (flagless _) hu hm
        · cases hu; cases hm
      · rename_i hk
        split at hu
        · rename_i hfl; exact stepcase true (.inl hk) hfl hu
        · cases hu; cases hm
      · rename_i hk
        split at hu
        · rename_i hfl; exact stepcase false (.inr hk) hfl hu
        · cases hu; cases hm
      · split at hu
        · exact inv_rec hp hG (flagless _) hu hm
        · cases hu; cases hm
      · split at hu
        · exact inv_rec hp hG (flagless _) hu hm
        · cases hu; cases hm
      · cases hu; cases hm
      · cases hu; cases hm

end prot

/-! ### Values for what is visited -/

/-- `τ` gives the variables of the state values of their sorts that make the guard true, and agrees with `ρ`
on the other variables. -/
structure Compat (M : Str F D) (ρ : Valn D) (st : UState F) (τ : Valn D) : Prop where
  off : ∀ i, i ∉ st.bound.map Var.id → τ i = ρ i
  dom : InDom M st.bound τ
  guard : ∀ g, st.guard = some g → M.truth (eval M τ g)

theorem eval_ext (M : Str F D) {outer : Nat → Prop} {b nv : List Var} {u : Fm F} (hu : VarsIn outer b u) {τ τ' : Valn D}
    (hd : ∀ v ∈ nv, v.id ∉ b.map Var.id) (ho : ∀ v ∈ nv, ¬ outer v.id)
    (h : ∀ i, i ∉ nv.map Var.id → τ' i = τ i) : eval M τ' u = eval M τ u := by
  apply eval_agree_vars
  intro v hv
  apply h
  intro hm
  obtain ⟨w, hw, e⟩ := List.mem_map.1 hm
  rcases hu v hv with h1 | h1
  · exact hd w hw (e ▸ h1)
  · exact ho w hw (e ▸ h1)

theorem Compat.add {M : Str F D} {L : Lang F} (hsem : Sem L M) {outer : Nat → Prop} {ρ τ τ' : Valn D} {t : Fm F}
    {st st' : UState F} {nv : List Var} {c : Fm F} (hi : Inv outer t st) (hc : Compat M ρ st τ)
    (h : st.addCondition L nv c = some st') (hd : ∀ v ∈ nv, v.id ∉ st.bound.map Var.id)
    (ho : ∀ v ∈ nv, ¬ outer v.id) (hτ : ∀ i, i ∉ nv.map Var.id → τ' i = τ i) (hdom : InDom M nv τ')
    (ht : M.truth (eval M τ' c)) : Compat M ρ st' τ' := by
  obtain ⟨_, h2, h3⟩ := addCondition_some h
  refine ⟨?_, ?_, ?_⟩
  · intro i hi'
    rw [h2, List.map_append, List.mem_append, not_or] at hi'
    rw [hτ i hi'.2, hc.off i hi'.1]
  · rw [h2]
    intro v hv
    rcases List.mem_append.1 hv with hv | hv
    · rw [hτ]
      · exact hc.dom v hv
      · intro hm
        obtain ⟨w, hw, e⟩ := List.mem_map.1 hm
        exact hd w hw (e ▸ List.mem_map_of_mem hv)
    · exact hdom v hv
  · intro g' hg'
    rcases h3 with ⟨_, h3⟩ | ⟨g, hg, h3⟩
    · rw [h3] at hg'; cases hg'; exact ht
    · rw [h3] at hg'; cases hg'
      simp only [Lang.ands, eval, evals]
      rw [hsem.and]
      intro d hd'
      simp only [List.mem_cons, List.not_mem_nil, or_false] at hd'
      rcases hd' with rfl | rfl
      · rw [eval_ext M (hi.guard g hg) hd ho hτ]; exact hc.guard g hg
      · exact ht

theorem Compat.addVars {M : Str F D} {outer : Nat → Prop} {ρ τ τ' : Valn D} {t : Fm F}
    {st st' : UState F} {nv : List Var} (hi : Inv outer t st) (hc : Compat M ρ st τ)
    (h : st.addVariables nv = some st') (hd : ∀ v ∈ nv, v.id ∉ st.bound.map Var.id)
    (ho : ∀ v ∈ nv, ¬ outer v.id) (hτ : ∀ i, i ∉ nv.map Var.id → τ' i = τ i) (hdom : InDom M nv τ') :
    Compat M ρ st' τ' := by
  obtain ⟨_, h2, h3⟩ := addVariables_some h
  refine ⟨?_, ?_, ?_⟩
  · intro i hi'
    rw [h2, List.map_append, List.mem_append, not_or] at hi'
    rw [hτ i hi'.2, hc.off i hi'.1]
  · rw [h2]
    intro v hv
    rcases List.mem_append.1 hv with hv | hv
    · rw [hτ]
      · exact hc.dom v hv
      · intro hm
        obtain ⟨w, hw, e⟩ := List.mem_map.1 hm
        exact hd w hw (e ▸ List.mem_map_of_mem hv)
    · exact hdom v hv
  · intro g hg
    rw [h3] at hg
    rw [eval_ext M (hi.guard g hg) hd ho hτ]
    exact hc.guard g hg

/-- Entering a content whose variables are renamed away. -/
theorem lift_ren {M : Str F D} {L : Lang F} (hsem : Sem L M) {outer : Nat → Prop} {ρ τ : Valn D} {t : Fm F}
    {st st' : UState F} {vs : List Var} {c : Fm F} (hi : Inv outer t st) (hc : Compat M ρ st τ)
    (hn : (vs.map Var.id).Nodup)
    (h : st.addCondition L (vs.map (getVar (collisionAvoiding vs st.bound))) c = some st')
    (ho : ∀ v ∈ st'.bound, ¬ outer v.id) {σ : Valn D} (hd : InDom M vs σ)
    (ht : ∀ τ' : Valn D, (∀ u, VarsIn outer st.bound u → eval M τ' u = eval M τ u) →
      (∀ v : Var, v.id ∈ vs.map Var.id → τ' (getVar (collisionAvoiding vs st.bound) v).id = σ v.id) →
      M.truth (eval M τ' c)) :
    ∃ τ', Compat M ρ st' τ' ∧
      ∀ v : Var, v.id ∈ vs.map Var.id → τ' (getVar (collisionAvoiding vs st.bound) v).id = σ v.id := by
  obtain ⟨τ', h1, h2, h3⟩ := bind_exists M vs st.bound hn τ σ hd
  obtain ⟨_, hb, _⟩ := addCondition_some h
  have hd' := renamed_outside vs st.bound hn
  have ho' : ∀ v ∈ vs.map (getVar (collisionAvoiding vs st.bound)), ¬ outer v.id :=
    fun v hv => ho v (by rw [hb]; exact List.mem_append_right _ hv)
  exact ⟨τ', hc.add hsem hi h hd' ho' h1 h3 (ht τ' (fun u hu => eval_ext M hu hd' ho' h1) h2), h2⟩

theorem eval_stepF (M : Str F D) (s : GStep F) (r : List (Nat × Var)) (τ' σ : Valn D)
    (h : ∀ v ∈ s.vars, τ' (getVar r v).id = σ v.id) : eval M τ' (.app s.fn (s.vars.map (renSubst r))) = s.time M σ := by
  simp only [eval, evals_eq, List.map_map, GStep.time]
  congr 1
  apply List.map_congr_left
  intro v hv
  simp only [Function.comp_apply, renSubst, eval]
  exact h v hv

theorem truth_before {M : Str F D} {L : Lang F} (hsem : Sem L M) (τ : Valn D) (x y : Fm F) :
    M.truth (eval M τ (L.before x y)) ↔ Le L M (eval M τ x) (eval M τ y) := by
  simp only [Lang.before, Lang.ors, Lang.strictBefore, Lang.meq, eval, evals, hsem.or]
  simp only [List.mem_cons, List.not_mem_nil, or_false, exists_eq_or_imp, exists_eq_left, hsem.eq, Le, Lt]

theorem truth_strictBefore {M : Str F D} {L : Lang F} (τ : Valn D) (x y : Fm F) :
    M.truth (eval M τ (L.strictBefore x y)) ↔ Lt L M (eval M τ x) (eval M τ y) := by
  simp only [Lang.strictBefore, eval, evals, Lt]

/-- `x` is visited, up to values of variables, in a state whose flags satisfy `P`. -/
def Cov (C : SearchCfg F) (fl : Flags) (roots : List (Fm F × List Var)) (M : Str F D) (ρ : Valn D) (P : Flags → Prop)
    (x : Clo F D) : Prop :=
  ∃ t st τ, ∃ θ : Subst F, Elem C fl roots t st ∧ P st.flags ∧ Compat M ρ st τ ∧ t = Subst.apply θ x.1 ∧
    ∀ v ∈ x.1.vars, eval M τ (θ v) = x.2 v.id

section lift
variable {C : SearchCfg F} {fl : Flags} {roots : List (Fm F × List Var)} {outer : Nat → Prop} {cells : List (GCell F)}
  {M : Str F D} {ρ : Valn D} {part : Fm F → Fm F → Prop} (hp : ProtOK C.L C.steps cells) (hsem : Sem C.L M)
  (hinv : ∀ t st, Elem C fl roots t st → Inv outer t st) (hcl : NoClash C fl roots outer)
  (hunf : ∀ t st, Elem C fl roots t st → ∃ l, unfold C.L C.steps C.G t st = some l)

theorem eval_match {θ : Subst F} {w : Fm F} {τ κ : Valn D} (hq : NoQuant w) (h : ∀ v ∈ w.vars, eval M τ (θ v) = κ v.id) :
    eval M τ (Subst.apply θ w) = eval M κ w :=
  eval_apply M θ w (hq.noCapture θ) τ κ (fun v hv => (h v hv).symm)

theorem cov_part (hde : Descends C.A part) {P : Flags → Prop} {w a : Fm F} {κ : Valn D}
    (h : Cov C fl roots M ρ P (w, κ)) (hpa : part w a) : (∃ v, a = .var v) ∨ Cov C fl roots M ρ P (a, κ) := by
  obtain ⟨t, st, τ, θ, he, hP, hc, rfl, hm⟩ := h
  rcases hde.down w a hpa with h | h
  · exact .inl h
  · exact .inr ⟨_, st, τ, θ, he.next (h θ), hP, hc, rfl, fun v hv => hm v (hde.vars w a hpa v hv)⟩

include hp hinv hcl hunf in
theorem cov_taq {P : Flags → Prop} (hP : ∀ f, P f → f.taq = true) {f : F} {args : List (Fm F)} {bound free content c κ σ}
    (h : Cov C fl roots M ρ P (.app f args, κ)) (hk : C.L.kind f = .taq bound free content) (hcm : c ∈ content)
    (hf : free.map (fun v => σ v.id) = args.map (eval M κ)) (hb : InDom M bound σ) :
    Cov C fl roots M ρ P (c, σ) := by
  obtain ⟨t, st, τ, θ, he, hPf, hc, rfl, hm⟩ := h
  obtain ⟨hnd, hct⟩ := hp.taq f bound free content hk
  have hi := hinv _ _ he
  obtain ⟨l, hl⟩ := hunf _ _ he
  have hl' := hl
  simp only [Subst.apply, Subst.applys_eq] at he hi
  simp only [Subst.apply, Subst.applys_eq, unfold, hk, hP _ hPf, if_true, unfoldQuantifier] at hl'
  have hlen : (free.map Var.id).length = (args.map (Subst.apply θ)).length := by
    have := congrArg List.length hf
    simpa using this
  simp only [FrozenSubst.newFrom, hlen, if_true, Option.map_eq_some_iff] at hl'
  obtain ⟨st', hst, rfl⟩ := hl'
  obtain ⟨h1, h2, h3⟩ := addVariables_some hst
  have hbn : (bound.map Var.id).Nodup := by
    rw [List.map_append, List.nodup_append] at hnd; exact hnd.2.1
  have hdj : ∀ z : Var, z.id ∈ free.map Var.id → z.id ∉ bound.map Var.id := by
    intro z hz h'
    rw [List.map_append, List.nodup_append] at hnd
    exact hnd.2.2 _ hz _ h' rfl
  obtain ⟨τ', g1, g2, g3⟩ := bind_exists M bound (free ++ st.bound) hbn τ σ hb
  have hout := renamed_outside bound (free ++ st.bound) hbn
  have hout1 : ∀ v ∈ bound.map (getVar (collisionAvoiding bound (free ++ st.bound))), v.id ∉ st.bound.map Var.id :=
    fun v hv h' => hout v hv (by rw [List.map_append]; exact List.mem_append_right _ h')
  have hmem : (Subst.apply (MSubst.get ((free.map Var.id).zip (args.map (Subst.apply θ))))
      (Subst.apply (renSubst (collisionAvoiding bound (free ++ st.bound))) c), st') ∈
      content.map (fun f => (Subst.apply (MSubst.get ((free.map Var.id).zip (args.map (Subst.apply θ))))
      (Subst.apply (renSubst (collisionAvoiding bound (free ++ st.bound))) f), st')) := List.mem_map_of_mem hcm
  have he' : Elem C fl roots _ st' := Elem.unfold he (by simpa only [Subst.apply, Subst.applys_eq] using hl) hmem
  have ho' : ∀ v ∈ bound.map (getVar (collisionAvoiding bound (free ++ st.bound))), ¬ outer v.id :=
    fun v hv => hcl.bound _ _ he' v (by rw [h2]; exact List.mem_append_right _ hv)
  refine ⟨_, st', τ', (renSubst (collisionAvoiding bound (free ++ st.bound))).chain
    (MSubst.get ((free.map Var.id).zip (args.map (Subst.apply θ)))), he', by rw [h1]; exact hPf,
    hc.addVars hi hst hout1 ho' g1 g3, (C02_chain _ _ _).symm, ?_⟩
  intro z hz
  simp only [Subst.chain, renSubst, Subst.apply]
  have hz' := (hct c hcm).2 z hz
  rw [List.map_append] at hz'
  rcases List.mem_append.1 hz' with hzf | hzb
  · rw [C06_others_unchanged _ _ _ (hdj z hzf)]
    obtain ⟨i, e1, e2⟩ := zip_get hlen hzf
    rw [List.getElem?_map] at e2
    obtain ⟨arg, ha, e2⟩ := Option.map_eq_some_iff.1 e2
    rw [← e2]
    have hargm := List.mem_of_getElem? ha
    rw [eval_ext M (hi.vars.arg (List.mem_map_of_mem hargm)) hout1 ho' g1]
    have hq : NoQuant arg := NoQuant.of_apply (hi.noQuant.arg (List.mem_map_of_mem hargm))
    rw [eval_match hq (κ := κ) (fun v hv => hm v (vars_arg hargm hv))]
    have : (free.map (fun v => σ v.id))[i]? = some (eval M κ arg) := by rw [hf, List.getElem?_map, ha]; rfl
    rw [List.getElem?_map] at this e1
    obtain ⟨v, hv, e3⟩ := Option.map_eq_some_iff.1 this
    obtain ⟨v', hv', e4⟩ := Option.map_eq_some_iff.1 e1
    rw [hv] at hv'; cases hv'
    rw [← e3, e4]
  · have hnf : (getVar (collisionAvoiding bound (free ++ st.bound)) z).id ∉ free.map Var.id := by
      obtain ⟨w, hw, e⟩ := List.mem_map.1 hzb
      rw [← getVar_id_congr _ w z e]
      exact fun h' => hout _ (List.mem_map_of_mem hw) (by rw [List.map_append]; exact List.mem_append_left _ h')
    rw [zip_get_not hlen hnf]
    simp only [eval]
    exact g2 z hzb

include hp hsem hinv hcl hunf in
theorem cov_step {P : Flags → Prop} (hP : ∀ f, P f → f.stepMac = true) {x y : Clo F D}
    (h : Cov C fl roots M ρ P x) (hs : StepOf C.L C.steps M x y) : Cov C fl roots M ρ P y := by
  obtain ⟨f, arg, κ, s, σ, msg, rfl, rfl, hk, hsm, hd, ht⟩ : ∃ f arg κ s σ, ∃ msg : Bool, x = (.app f [arg], κ) ∧
      y = (if msg then s.message else s.condition, σ) ∧
      ((msg = true ∧ C.L.kind f = .mac .msg) ∨ (msg = false ∧ C.L.kind f = .mac .cond)) ∧ s ∈ C.steps ∧ InDom M s.vars σ ∧
      eval M κ arg = s.time M σ := by
    cases hs with
    | @msg f arg τ s σ hk hs hd ht => exact ⟨f, arg, τ, s, σ, true, rfl, rfl, .inl ⟨rfl, hk⟩, hs, hd, ht⟩
    | @cond f arg τ s σ hk hs hd ht => exact ⟨f, arg, τ, s, σ, false, rfl, rfl, .inr ⟨rfl, hk⟩, hs, hd, ht⟩
  obtain ⟨t, st, τ, θ, he, hPf, hc, rfl, hm⟩ := h
  have hi := hinv _ _ he
  obtain ⟨l, hl⟩ := hunf _ _ he
  have hl' : unfoldStepMacro C.L C.steps msg [Subst.apply θ arg] st = some l := by
    rcases hk with ⟨rfl, hk⟩ | ⟨rfl, hk⟩ <;>
      simpa only [Subst.apply, Subst.applys, unfold, hk, hP _ hPf, if_true] using hl
  simp only [Subst.apply, Subst.applys] at he hi hl
  have hk' : C.L.kind f = .mac .msg ∨ C.L.kind f = .mac .cond := by
    rcases hk with ⟨_, hk⟩ | ⟨_, hk⟩
    · exact .inl hk
    · exact .inr hk
  have hns := hcl.step f _ st he hk' (hP _ hPf)
  simp only [unfoldStepMacro] at hl'
  obtain ⟨⟨t', st'⟩, hmem, e⟩ := (mapM_some hl').1 s hsm
  simp only [Option.map_eq_some_iff, Prod.mk.injEq] at e
  obtain ⟨st'', hst, rfl, rfl⟩ := e
  have he' := Elem.unfold he hl hmem
  obtain ⟨h1, h2, _⟩ := addCondition_some hst
  have hid : ∀ v ∈ s.vars, getVar (collisionAvoiding s.vars st.bound) v = v := by
    intro v hv
    exact (C06_unchanged _ _ (sortConsistent_of_nodup (hp.params s hsm)) v hv).1 (hns s hsm v hv)
  obtain ⟨τ', g1, g2⟩ := lift_ren hsem hi hc (hp.params s hsm) hst (hcl.bound _ _ he') hd (by
    intro τ' e1 e2
    simp only [Lang.meq, eval, evals, hsem.eq]
    rw [e1 _ (hi.vars.arg (List.mem_singleton_self _))]
    have hq : NoQuant arg := NoQuant.of_apply (hi.noQuant.arg (List.mem_singleton_self _))
    rw [eval_match hq (κ := κ) (fun v hv => hm v (vars_arg (List.mem_singleton_self _) hv)), ht]
    simp only [GStep.time, evals_eq, List.map_map]
    congr 1
    apply List.map_congr_left
    intro v hv
    simp only [Function.comp_apply, eval]
    exact (e2 v (List.mem_map_of_mem hv)).symm)
  refine ⟨_, st'', τ', fun v => .var v, he', by rw [h1]; exact hPf, g1, ?_, ?_⟩
  · simp only [apply_id]
  · intro v hv
    simp only [eval]
    have hv' : v.id ∈ s.vars.map Var.id := by
      cases msg
      · exact (hp.condition s hsm).2 v hv
      · exact (hp.message s hsm).2 v hv
    have := g2 v hv'
    obtain ⟨w, hw, e⟩ := List.mem_map.1 hv'
    rw [← getVar_id_congr _ w v e, hid w hw, e] at this
    exact this

include hp hsem hinv hcl in
/-- The contents reported for a call of an input or a cell. -/
theorem lift_rec {r : MacroRef F} {anc : Ancestors F} (hanc : C.G.ancestors r = some anc)
    (hsub : ∀ d ∈ anc.cells, d ∈ cells) {f : F} {args : List (Fm F)} {o : Fm F} (ho : args.getLast? = some o)
    {st : UState F} {fl' : Flags} {l : List (Fm F × UState F)} {κ τ : Valn D} {θ : Subst F}
    (he : Elem C fl roots (.app f (args.map (Subst.apply θ))) st)
    (hl : unfold C.L C.steps C.G (.app f (args.map (Subst.apply θ))) st = some l)
    (hl' : unfoldCellOrInput C.L C.steps C.G r { st with flags := fl' } (args.map (Subst.apply θ)) = some l)
    (hc : Compat M ρ st τ) (hm : ∀ v ∈ (Fm.app f args).vars, eval M τ (θ v) = κ v.id) :
    (∀ d ∈ anc.cells, ∀ a ∈ d.assigns, ∀ σ, InDom M (a.step.vars ++ a.fresh) σ →
      (r.isInput = true → Lt C.L M (a.step.time M σ) (eval M κ o)) → Le C.L M (a.step.time M σ) (eval M κ o) →
      Cov C fl roots M ρ (fun g => g = fl') (a.content, σ)) ∧
    (anc.input = true → ∀ s ∈ C.steps, ∀ σ, InDom M s.vars σ → Lt C.L M (s.time M σ) (eval M κ o) →
      Cov C fl roots M ρ (fun g => g = fl') (s.message, σ) ∧ Cov C fl roots M ρ (fun g => g = fl') (s.condition, σ)) := by
  have hi : Inv outer (.app f (args.map (Subst.apply θ))) { st with flags := fl' } :=
    ⟨(hinv _ _ he).noQuant, (hinv _ _ he).vars, (hinv _ _ he).guard, (hinv _ _ he).nodup⟩
  have hc' : Compat M ρ { st with flags := fl' } τ := ⟨hc.off, hc.dom, hc.guard⟩
  have hoθ : (args.map (Subst.apply θ)).getLast? = some (Subst.apply θ o) := by
    rw [List.getLast?_map, ho]; rfl
  have hom : o ∈ args := List.mem_of_getLast? ho
  have hoq : NoQuant o := NoQuant.of_apply (hi.noQuant.arg (List.mem_map_of_mem hom))
  have hoe : eval M τ (Subst.apply θ o) = eval M κ o := eval_match hoq (fun v hv => hm v (vars_arg hom hv))
  have hov : VarsIn outer st.bound (Subst.apply θ o) := hi.vars.arg (List.mem_map_of_mem hom)
  unfold unfoldCellOrInput at hl'
  simp only [hanc, hoθ] at hl'
  split at hl'
  · rename_i cs is hcs his
    cases hl'
    constructor
    · intro d hd a ha σ hσ hlt hle
      obtain ⟨⟨t', st'⟩, hmem, e⟩ := (mapM_some hcs).1 a (List.mem_flatMap.2 ⟨d, hd, ha⟩)
      have he' := Elem.unfold he hl (List.mem_append_left _ hmem)
      unfold unfoldAssign at e
      simp only [Option.map_eq_some_iff, Prod.mk.injEq] at e
      obtain ⟨st'', hst, rfl, rfl⟩ := e
      obtain ⟨h1, h2, _⟩ := addCondition_some hst
      have hstep : ∀ v ∈ a.step.vars, v.id ∈ (a.step.vars ++ a.fresh).map Var.id :=
        fun v hv => List.mem_map_of_mem (List.mem_append_left _ hv)
      obtain ⟨τ', g1, g2⟩ := lift_ren hsem hi hc' (hp.fresh d (hsub d hd) a ha) hst (hcl.bound _ _ he') hσ (by
        intro τ' e1 e2
        have e3 := eval_stepF M a.step _ τ' σ (fun v hv => e2 v (hstep v hv))
        split
        · rename_i hb
          rw [truth_strictBefore, e3, e1 _ hov, hoe]
          exact hlt hb
        · rw [truth_before hsem, e3, e1 _ hov, hoe]
          exact hle)
      refine ⟨_, st'', τ', _, he', h1, g1, rfl, ?_⟩
      intro v hv
      simp only [renSubst, eval]
      exact g2 v ((hp.content d (hsub d hd) a ha).2 v hv)
    · intro hin s hs σ hσ hlt
      rw [if_pos hin] at his
      obtain ⟨y, hy, e⟩ := (mapM_some his).1 s hs
      have key : ∀ t', (∀ v ∈ t'.vars, v.id ∈ s.vars.map Var.id) →
          (∀ st'', y = [(Subst.apply (renSubst (collisionAvoiding s.vars st.bound)) s.message, st''),
            (Subst.apply (renSubst (collisionAvoiding s.vars st.bound)) s.condition, st'')] →
            (Subst.apply (renSubst (collisionAvoiding s.vars st.bound)) t', st'') ∈ y) →
          Cov C fl roots M ρ (fun g => g = fl') (t', σ) := by
        intro t' hv' hmem
        unfold unfoldStep at e
        simp only [Option.map_eq_some_iff] at e
        obtain ⟨st'', hst, rfl⟩ := e
        have he' := Elem.unfold he hl (List.mem_append_right _ (List.mem_flatten.2 ⟨_, hy, hmem st'' rfl⟩))
        obtain ⟨h1, h2, _⟩ := addCondition_some hst
        obtain ⟨τ', g1, g2⟩ := lift_ren hsem hi hc' (hp.params s hs) hst (hcl.bound _ _ he') hσ (by
          intro τ' e1 e2
          rw [truth_strictBefore, eval_stepF M s _ τ' σ (fun v hv => e2 v (List.mem_map_of_mem hv)), e1 _ hov, hoe]
          exact hlt)
        refine ⟨_, st'', τ', _, he', h1, g1, rfl, ?_⟩
        intro v hv
        simp only [renSubst, eval]
        exact g2 v (hv' v hv)
      refine ⟨key s.message (hp.message s hs).2 ?_, key s.condition (hp.condition s hs).2 ?_⟩
      · rintro st'' rfl; exact List.mem_cons_self ..
      · rintro st'' rfl; exact List.mem_cons_of_mem _ (List.mem_cons_self ..)
  · cases hl'

include hp hinv hcl hunf in
theorem cov_plain (hde : Descends C.A part) {P : Flags → Prop} (hP : ∀ f, P f → f.taq = true) {x y : Clo F D}
    (h : Cov C fl roots M ρ P x) (hl : Plain C.L M part x y) : (∃ v, y.1 = .var v) ∨ Cov C fl roots M ρ P y := by
  cases hl with
  | part hpa => exact cov_part hde h hpa
  | taq hk hc hf hb => exact .inr (cov_taq hp hinv hcl hunf hP h hk hc hf hb)

include hp hsem hinv hcl hunf in
theorem cov_local (hde : Descends C.A part) {P : Flags → Prop} (hP : ∀ f, P f → f.taq = true ∧ f.stepMac = true) {x y : Clo F D}
    (h : Cov C fl roots M ρ P x) (hl : Local C.L C.steps M part x y) : (∃ v, y.1 = .var v) ∨ Cov C fl roots M ρ P y := by
  rcases hl with hl | hl
  · exact cov_plain hp hinv hcl hunf hde (fun f hf => (hP f hf).1) h hl
  · exact .inr (cov_step hp hsem hinv hcl hunf (fun f hf => (hP f hf).2) h hl)

/-- All messages and conditions of steps before `T` are visited with the flags `g`. -/
def InCov (C : SearchCfg F) (fl : Flags) (roots : List (Fm F × List Var)) (M : Str F D) (ρ : Valn D) (g : Flags) (T : D) : Prop :=
  ∀ s ∈ C.steps, ∀ σ, InDom M s.vars σ → Lt C.L M (s.time M σ) T →
    Cov C fl roots M ρ (fun f => f = g) (s.message, σ) ∧ Cov C fl roots M ρ (fun f => f = g) (s.condition, σ)

/-- All that is stored in the cells of `anc` until `T` is visited with the flags `g`. -/
def CellCov (C : SearchCfg F) (fl : Flags) (roots : List (Fm F × List Var)) (M : Str F D) (ρ : Valn D) (g : Flags)
    (anc : Ancestors F) (T : D) : Prop :=
  ∀ d ∈ anc.cells, ∀ a ∈ d.assigns, ∀ σ, InDom M (a.step.vars ++ a.fresh) σ → Le C.L M (a.step.time M σ) T →
    Cov C fl roots M ρ (fun f => f = g) (a.content, σ)

include hp hsem hinv hcl hunf in
theorem cov_input {g : Flags} (hg : g.input = true) (hin : C.G.input.input = true)
    (hG : ∀ r anc, C.G.ancestors r = some anc → ∀ d ∈ anc.cells, d ∈ cells) {x : Clo F D} {T : D}
    (h : Cov C fl roots M ρ (fun f => f = g) x) (hc : CallAt C.L M x .input T) :
    InCov C fl roots M ρ { g with input := false } T := by
  cases hc with
  | @input f args o κ hk ho =>
    obtain ⟨t, st, τ, θ, he, rfl, hcp, rfl, hm⟩ := h
    obtain ⟨l, hl⟩ := hunf _ _ he
    simp only [Subst.apply, Subst.applys_eq] at he hl
    have hl' := hl
    simp only [unfold, hk, hg, if_true] at hl'
    exact (lift_rec hp hsem hinv hcl (r := .input) (anc := C.G.input) rfl (hG .input _ rfl) ho he hl hl' hcp hm).2 hin

include hp hsem hinv hcl hunf in
theorem cov_cell {g : Flags} (hg : g.cells = true) {c : GCell F} {anc : Ancestors F} (hanc : C.G.ancestors (.cell c) = some anc)
    (hG : ∀ r anc, C.G.ancestors r = some anc → ∀ d ∈ anc.cells, d ∈ cells) {x : Clo F D} {T : D}
    (h : Cov C fl roots M ρ (fun f => f = g) x) (hc : CallAt C.L M x (.cell c) T) :
    CellCov C fl roots M ρ { g with cells := false } anc T := by
  cases hc with
  | @cell f args o c κ hk ho =>
    obtain ⟨t, st, τ, θ, he, rfl, hcp, rfl, hm⟩ := h
    obtain ⟨l, hl⟩ := hunf _ _ he
    simp only [Subst.apply, Subst.applys_eq] at he hl
    have hl' := hl
    simp only [unfold, hk, hg, if_true] at hl'
    intro d hd a ha σ hσ hle
    exact (lift_rec hp hsem hinv hcl (r := .cell c) hanc (hG _ _ hanc) ho he hl hl' hcp hm).1 d hd a ha σ hσ
      (fun h => by cases h) hle

end lift

/-! ### Every occurrence is visited -/

section occ
variable {L : Lang F} {steps : List (GStep F)} {M : Str F D} {part : Fm F → Fm F → Prop}

theorem Calls.local {x y : Clo F D} {r : MacroRef F} {T : D} (hl : Local L steps M part x y)
    (h : Calls L steps M part y r T) : Calls L steps M part x r T := by
  obtain ⟨z, hz, hc⟩ := h
  exact ⟨z, .head hl hz, hc⟩

theorem CallAt.calls {x : Clo F D} {r : MacroRef F} {T : D} (h : CallAt L M x r T) : Calls L steps M part x r T :=
  ⟨x, .refl, h⟩

theorem lt_of_le_lt (ht : ∀ a b c, Lt L M a b → Lt L M b c → Lt L M a c) {a b c : D} (h : Le L M a b) (h' : Lt L M b c) :
    Lt L M a c := by
  rcases h with h | rfl
  · exact ht _ _ _ h h'
  · exact h'

theorem le_of_le_le (ht : ∀ a b c, Lt L M a b → Lt L M b c → Lt L M a c) {a b c : D} (h : Le L M a b) (h' : Le L M b c) :
    Le L M a c := by
  rcases h' with h' | rfl
  · exact .inl (lt_of_le_lt ht h h')
  · exact h

end occ

/-- What the dependency graph must give for one cell (see `GraphOK`). -/
structure AncOK (L : Lang F) (steps : List (GStep F)) (M : Str F D) (part : Fm F → Fm F → Prop) (anc : Ancestors F) : Prop where
  closed : ∀ d ∈ anc.cells, ∀ a ∈ d.assigns, ∀ σ e T, Calls L steps M part (a.content, σ) (.cell e) T → e ∈ anc.cells
  input : ∀ d ∈ anc.cells, ∀ a ∈ d.assigns, ∀ σ T, Calls L steps M part (a.content, σ) .input T →
      ∀ s ∈ steps, ∀ σ' e T', Calls L steps M part (s.message, σ') (.cell e) T' ∨
        Calls L steps M part (s.condition, σ') (.cell e) T' → e ∈ anc.cells

/-- The situations met along an occurrence. -/
inductive Good (C : SearchCfg F) (roots : List (Fm F × List Var)) (M : Str F D) (ρ : Valn D) (part : Fm F → Fm F → Prop) :
    Clo F D → Prop
  | var {x v} (h : x.1 = .var v) : Good C roots M ρ part x
  /-- no input or cell followed yet -/
  | k0 {x} (h : Cov C .all roots M ρ (fun f => f = .all) x) : Good C roots M ρ part x
  /-- in a step before `T`, where an input was called first at `T` -/
  | k1 {x} (T : D) (hin : InCov C .all roots M ρ { Flags.all with input := false } T)
      (h : Cov C .all roots M ρ (fun f => f = { Flags.all with input := false }) x)
      (hlt : ∀ r T', Calls C.L C.steps M part x r T' → Lt C.L M T' T) : Good C roots M ρ part x
  /-- in a cell followed from such a step -/
  | k2 {x} (T Tc : D) (anc : Ancestors F) (hanc : AncOK C.L C.steps M part anc)
      (hin : InCov C .all roots M ρ { Flags.all with input := false } T)
      (hce : CellCov C .all roots M ρ { Flags.all with input := false, cells := false } anc Tc) (hT : Lt C.L M Tc T)
      (h : Cov C .all roots M ρ (fun f => f = { Flags.all with input := false, cells := false }) x)
      (hle : ∀ r T', Calls C.L C.steps M part x r T' → Le C.L M T' Tc)
      (hcl : ∀ e T', Calls C.L C.steps M part x (.cell e) T' → e ∈ anc.cells) : Good C roots M ρ part x
  /-- in a cell, called first at `Tc` -/
  | l1 {x} (Tc : D) (anc : Ancestors F) (hanc : AncOK C.L C.steps M part anc)
      (hce : CellCov C .all roots M ρ { Flags.all with cells := false } anc Tc)
      (h : Cov C .all roots M ρ (fun f => f = { Flags.all with cells := false }) x)
      (hle : ∀ r T', Calls C.L C.steps M part x r T' → Le C.L M T' Tc)
      (hcl : ∀ e T', Calls C.L C.steps M part x (.cell e) T' → e ∈ anc.cells)
      (hst : ∀ T', Calls C.L C.steps M part x .input T' → ∀ s ∈ C.steps, ∀ σ' e T',
        Calls C.L C.steps M part (s.message, σ') (.cell e) T' ∨ Calls C.L C.steps M part (s.condition, σ') (.cell e) T' →
        e ∈ anc.cells) : Good C roots M ρ part x
  /-- in a step followed from such a cell, by an input called at `T` -/
  | l2 {x} (Tc T : D) (anc : Ancestors F) (hanc : AncOK C.L C.steps M part anc)
      (hce : CellCov C .all roots M ρ { Flags.all with cells := false } anc Tc)
      (hin : InCov C .all roots M ρ { Flags.all with cells := false, input := false } T) (hT : Le C.L M T Tc)
      (h : Cov C .all roots M ρ (fun f => f = { Flags.all with cells := false, input := false }) x)
      (hlt : ∀ r T', Calls C.L C.steps M part x r T' → Lt C.L M T' T)
      (hcl : ∀ e T', Calls C.L C.steps M part x (.cell e) T' → e ∈ anc.cells)
      (hst : ∀ s ∈ C.steps, ∀ σ' e T',
        Calls C.L C.steps M part (s.message, σ') (.cell e) T' ∨ Calls C.L C.steps M part (s.condition, σ') (.cell e) T' →
        e ∈ anc.cells) : Good C roots M ρ part x

section good
variable {C : SearchCfg F} {roots : List (Fm F × List Var)} {outer : Nat → Prop} {cells : List (GCell F)}
  {M : Str F D} {ρ : Valn D} {part : Fm F → Fm F → Prop} (hp : ProtOK C.L C.steps cells) (hsem : Sem C.L M)
  (hinv : ∀ t st, Elem C .all roots t st → Inv outer t st) (hcl : NoClash C .all roots outer)
  (hunf : ∀ t st, Elem C .all roots t st → ∃ l, unfold C.L C.steps C.G t st = some l)
  (hde : Descends C.A part) (htm : Timed C.L C.steps cells M part) (hG : GraphOK C.L C.steps cells C.G M part)
  (hsub : ∀ r anc, C.G.ancestors r = some anc → ∀ d ∈ anc.cells, d ∈ cells)

include hp hsem hinv hcl hunf hde in
theorem good_local {x y : Clo F D} (h : Good C roots M ρ part x) (hl : Local C.L C.steps M part x y) :
    Good C roots M ρ part y := by
  cases h with
  | var h =>
    obtain ⟨t, κ⟩ := x
    cases h
    rcases hl with hl | hl
    · cases hl with
      | part hpa => exact absurd hpa (hde.var _ _)
    · cases hl
  | k0 h =>
    rcases cov_local hp hsem hinv hcl hunf hde (by rintro _ rfl; exact ⟨rfl, rfl⟩) h hl with ⟨v, h⟩ | h
    · exact .var h
    · exact .k0 h
  | k1 T hin h hlt =>
    rcases cov_local hp hsem hinv hcl hunf hde (by rintro _ rfl; exact ⟨rfl, rfl⟩) h hl with ⟨v, h⟩ | h
    · exact .var h
    · exact .k1 T hin h (fun r T' hc => hlt r T' (hc.local hl))
  | k2 T Tc anc hanc hin hce hT h hle hcl' =>
    rcases cov_local hp hsem hinv hcl hunf hde (by rintro _ rfl; exact ⟨rfl, rfl⟩) h hl with ⟨v, h⟩ | h
    · exact .var h
    · exact .k2 T Tc anc hanc hin hce hT h (fun r T' hc => hle r T' (hc.local hl)) (fun e T' hc => hcl' e T' (hc.local hl))
  | l1 Tc anc hanc hce h hle hcl' hst =>
    rcases cov_local hp hsem hinv hcl hunf hde (by rintro _ rfl; exact ⟨rfl, rfl⟩) h hl with ⟨v, h⟩ | h
    · exact .var h
    · exact .l1 Tc anc hanc hce h (fun r T' hc => hle r T' (hc.local hl)) (fun e T' hc => hcl' e T' (hc.local hl))
        (fun T' hc => hst T' (hc.local hl))
  | l2 Tc T anc hanc hce hin hT h hlt hcl' hst =>
    rcases cov_local hp hsem hinv hcl hunf hde (by rintro _ rfl; exact ⟨rfl, rfl⟩) h hl with ⟨v, h⟩ | h
    · exact .var h
    · exact .l2 Tc T anc hanc hce hin hT h (fun r T' hc => hlt r T' (hc.local hl)) (fun e T' hc => hcl' e T' (hc.local hl)) hst

include hp hsem hinv hcl hunf htm hG hsub in
theorem good_rec {x y : Clo F D} {r : MacroRef F} {T : D} (h : Good C roots M ρ part x) (hr : ∀ T y, r = .exec → CallAt C.L M x r T → Yields C.L C.steps M r T y → False)
    (hca : CallAt C.L M x r T) (hy : Yields C.L C.steps M r T y) : Good C roots M ρ part y := by
  have hin := hG.input
  cases hy with
  | exec hs hd hle => exact absurd (hr _ _ rfl hca (.exec hs hd hle)) id
  | @inputMsg s σ T hs hd hlt =>
    have hcalls : ∀ r T', Calls C.L C.steps M part (s.message, σ) r T' → Lt C.L M T' T :=
      fun r T' hc => lt_of_le_lt htm.trans (htm.message s hs σ hd r T' hc) hlt
    cases h with
    | var h => obtain ⟨t, κ⟩ := x; cases h; cases hca
    | k0 h =>
      have := cov_input hp hsem hinv hcl hunf rfl hin hsub h hca
      exact .k1 T this (this s hs σ hd hlt).1 hcalls
    | k1 T1 hic h hlt' =>
      have h1 := hlt' _ _ hca.calls
      have h2 := htm.trans _ _ _ hlt h1
      exact .k1 T1 hic (hic s hs σ hd h2).1 (fun r T' hc => htm.trans _ _ _ (hcalls r T' hc) h1)
    | k2 T1 Tc anc hanc hic hce hT h hle hcl' =>
      have h1 := lt_of_le_lt htm.trans (hle _ _ hca.calls) hT
      have h2 := htm.trans _ _ _ hlt h1
      exact .k1 T1 hic (hic s hs σ hd h2).1 (fun r T' hc => htm.trans _ _ _ (hcalls r T' hc) h1)
    | l1 Tc anc hanc hce h hle hcl' hst =>
      have := cov_input hp hsem hinv hcl hunf rfl hin hsub h hca
      have hst' := hst _ hca.calls
      exact .l2 Tc T anc hanc hce this (hle _ _ hca.calls) (this s hs σ hd hlt).1 hcalls
        (fun e T' hc => hst' s hs σ e T' (.inl hc)) hst'
    | l2 Tc T1 anc hanc hce hic hT h hlt' hcl' hst =>
      have h1 := hlt' _ _ hca.calls
      have h2 := htm.trans _ _ _ hlt h1
      exact .l2 Tc T1 anc hanc hce hic hT (hic s hs σ hd h2).1 (fun r T' hc => htm.trans _ _ _ (hcalls r T' hc) h1)
        (fun e T' hc => hst s hs σ e T' (.inl hc)) hst
  | @inputCond s σ T hs hd hlt =>
    have hcalls : ∀ r T', Calls C.L C.steps M part (s.condition, σ) r T' → Lt C.L M T' T :=
      fun r T' hc => lt_of_le_lt htm.trans (htm.condition s hs σ hd r T' hc) hlt
    cases h with
    | var h => obtain ⟨t, κ⟩ := x; cases h; cases hca
    | k0 h =>
      have := cov_input hp hsem hinv hcl hunf rfl hin hsub h hca
      exact .k1 T this (this s hs σ hd hlt).2 hcalls
    | k1 T1 hic h hlt' =>
      have h1 := hlt' _ _ hca.calls
      have h2 := htm.trans _ _ _ hlt h1
      exact .k1 T1 hic (hic s hs σ hd h2).2 (fun r T' hc => htm.trans _ _ _ (hcalls r T' hc) h1)
    | k2 T1 Tc anc hanc hic hce hT h hle hcl' =>
      have h1 := lt_of_le_lt htm.trans (hle _ _ hca.calls) hT
      have h2 := htm.trans _ _ _ hlt h1
      exact .k1 T1 hic (hic s hs σ hd h2).2 (fun r T' hc => htm.trans _ _ _ (hcalls r T' hc) h1)
    | l1 Tc anc hanc hce h hle hcl' hst =>
      have := cov_input hp hsem hinv hcl hunf rfl hin hsub h hca
      have hst' := hst _ hca.calls
      exact .l2 Tc T anc hanc hce this (hle _ _ hca.calls) (this s hs σ hd hlt).2 hcalls
        (fun e T' hc => hst' s hs σ e T' (.inr hc)) hst'
    | l2 Tc T1 anc hanc hce hic hT h hlt' hcl' hst =>
      have h1 := hlt' _ _ hca.calls
      have h2 := htm.trans _ _ _ hlt h1
      exact .l2 Tc T1 anc hanc hce hic hT (hic s hs σ hd h2).2 (fun r T' hc => htm.trans _ _ _ (hcalls r T' hc) h1)
        (fun e T' hc => hst s hs σ e T' (.inr hc)) hst
  | @cell c a σ T ha hd hle =>
    have hc : c ∈ cells := by
      cases hca with
      | cell hk _ => exact hp.cells _ _ hk
    obtain ⟨anc, hanc, hself, hclo, hinp⟩ := hG.found c hc
    have hok : AncOK C.L C.steps M part anc := ⟨hclo, hinp⟩
    cases h with
    | var h => obtain ⟨t, κ⟩ := x; cases h; cases hca
    | k0 h =>
      have hcc := cov_cell hp hsem hinv hcl hunf rfl hanc hsub h hca
      exact .l1 T anc hok hcc (hcc c hself a ha σ hd hle)
        (fun r T' hcs => le_of_le_le htm.trans (htm.content c hc a ha σ hd r T' hcs) hle)
        (fun e T' hcs => hclo c hself a ha σ e T' hcs) (fun T' hcs => hinp c hself a ha σ T' hcs)
    | k1 T1 hic h hlt' =>
      have h1 := hlt' _ _ hca.calls
      have hcc := cov_cell hp hsem hinv hcl hunf rfl hanc hsub h hca
      exact .k2 T1 T anc hok hic hcc h1 (hcc c hself a ha σ hd hle)
        (fun r T' hcs => le_of_le_le htm.trans (htm.content c hc a ha σ hd r T' hcs) hle)
        (fun e T' hcs => hclo c hself a ha σ e T' hcs)
    | k2 T1 Tc anc' hanc' hic hce hT h hle' hcl' =>
      have hm := hcl' _ _ hca.calls
      have h1 := le_of_le_le htm.trans hle (hle' _ _ hca.calls)
      exact .k2 T1 Tc anc' hanc' hic hce hT (hce c hm a ha σ hd h1)
        (fun r T' hcs => le_of_le_le htm.trans (htm.content c hc a ha σ hd r T' hcs) h1)
        (fun e T' hcs => hanc'.closed c hm a ha σ e T' hcs)
    | l1 Tc anc' hanc' hce h hle' hcl' hst =>
      have hm := hcl' _ _ hca.calls
      have h1 := le_of_le_le htm.trans hle (hle' _ _ hca.calls)
      exact .l1 Tc anc' hanc' hce (hce c hm a ha σ hd h1)
        (fun r T' hcs => le_of_le_le htm.trans (htm.content c hc a ha σ hd r T' hcs) h1)
        (fun e T' hcs => hanc'.closed c hm a ha σ e T' hcs) (fun T' hcs => hanc'.input c hm a ha σ T' hcs)
    | l2 Tc T1 anc' hanc' hce hic hT h hlt' hcl' hst =>
      have hm := hcl' _ _ hca.calls
      have h1 := le_of_le_le htm.trans hle (.inl (hlt' _ _ hca.calls))
      have h2 := le_of_le_le htm.trans h1 hT
      exact .l1 Tc anc' hanc' hce (hce c hm a ha σ hd h2)
        (fun r T' hcs => le_of_le_le htm.trans (htm.content c hc a ha σ hd r T' hcs) h2)
        (fun e T' hcs => hanc'.closed c hm a ha σ e T' hcs) (fun T' hcs => hanc'.input c hm a ha σ T' hcs)

theorem Good.cov {x : Clo F D} (h : Good C roots M ρ part x) : (∃ v, x.1 = .var v) ∨ Cov C .all roots M ρ (fun _ => True) x := by
  have w : ∀ P : Flags → Prop, Cov C .all roots M ρ P x → Cov C .all roots M ρ (fun _ => True) x := by
    rintro P ⟨t, st, τ, θ, h1, _, h2⟩
    exact ⟨t, st, τ, θ, h1, trivial, h2⟩
  cases h with
  | var h => exact .inl ⟨_, h⟩
  | k0 h => exact .inr (w _ h)
  | k1 _ _ h => exact .inr (w _ h)
  | k2 _ _ _ _ _ _ _ h => exact .inr (w _ h)
  | l1 _ _ _ _ h => exact .inr (w _ h)
  | l2 _ _ _ _ _ _ _ h => exact .inr (w _ h)

/-- What is not `exec`. -/
def MacroRef.notExec : MacroRef F → Prop
  | .exec => False
  | _ => True

include hp hsem hinv hcl hunf hde htm hG hsub in
/-- Every occurrence is visited. -/
theorem cov_occurs {x y : Clo F D} (h0 : Cov C .all roots M ρ (fun f => f = .all) x)
    (ho : Occurs C.L C.steps M part MacroRef.notExec x y) :
    (∃ v, y.1 = .var v) ∨ Cov C .all roots M ρ (fun _ => True) y := by
  refine Good.cov (part := part) ?_
  induction ho with
  | refl => exact .k0 h0
  | tail _ hs ih =>
    rcases hs with hs | ⟨r, T, hX, hca, hy⟩
    · exact good_local hp hsem hinv hcl hunf hde ih hs
    · refine good_rec hp hsem hinv hcl hunf htm hG hsub ih ?_ hca hy
      rintro _ _ rfl _ _
      exact hX

end good

/-! ### From a visited term to a result -/

theorem quantVal_ex_of (M : Str F D) (P : Valn D → Prop) (τ : Valn D) (hP : P τ) : ∀ (vs : List Var) (ρ : Valn D),
    (∀ i, i ∉ vs.map Var.id → τ i = ρ i) → InDom M vs τ → quantVal M .ex vs P ρ := by
  intro vs
  induction vs with
  | nil =>
    intro ρ h _
    have : τ = ρ := funext (fun i => h i (by simp))
    rw [← this]; exact hP
  | cons v vs ih =>
    intro ρ h hd
    refine ⟨τ v.id, hd v (List.mem_cons_self ..), ih _ ?_ (fun w hw => hd w (List.mem_cons_of_mem _ hw))⟩
    intro i hi
    by_cases hv : i = v.id
    · subst hv; rw [Valn.set_self]
    · rw [Valn.set_ne _ _ hv]
      exact h i (by simp only [List.map_cons, List.mem_cons, not_or]; exact ⟨hv, hi⟩)

section final
variable [DecidableEq F] {C : SearchCfg F}

/-- What is assumed of the structure and of unification: the symbols `S` are constructors, the pattern and the
terms it is compared with are made of them, the subterm predicates are reflexive, and `mgu` fails only on
terms that are never equal (`C07_linear_on_partial` gives this when no variable is repeated;
`C07_incomplete` shows that it is not always so). -/
structure UnifOK (C : SearchCfg F) (M : Str F D) (S : F → Prop) (visited : Fm F → Prop) (x : Fm F) : Prop where
  inj : M.InjectiveOn S
  pattern : Over S x
  terms : ∀ t, visited t → C.A.unified C.L t = true → Over S t
  complete : ∀ t, visited t → C.A.unified C.L t = true → mgu C.mfuel x t = some none → ∀ τ, eval M τ x ≠ eval M τ t
  refl : ∀ s f, C.sub s = some f → ∀ d, M.truth (M.fn f [d, d])

omit [DecidableEq F] in
theorem eqFormulas_truth {M : Str F D} (hsem : Sem C.L M) {τ : Valn D} {eqs : List (Nat × Fm F)} {g : List (Fm F)}
    (h : eqFormulas C.L eqs = some g) (hs : SatEqs M τ eqs) : ∀ φ ∈ g, M.truth (eval M τ φ) := by
  intro φ hφ
  obtain ⟨p, hp, e⟩ := (mapM_some h).2 φ hφ
  obtain ⟨s, _, rfl⟩ := Option.map_eq_some_iff.1 e
  simp only [Lang.meq, eval, evals, hsem.eq]
  exact hs p hp

/-- A visited term of the right sort whose value is that of the pattern gives a result that holds. -/
theorem visited_result {M : Str F D} (hsem : Sem C.L M) {S : F → Prop} {visited : Fm F → Prop} {x t : Fm F}
    (hu : UnifOK C M S visited x) {ρ τ : Valn D} {st : UState F} (hv : visited t) (ht : C.A.unified C.L t = true)
    (hc : Compat M ρ st τ) (heq : eval M τ x = eval M τ t) {res : List (Option (List Var × Fm F))} (hn : none ∉ res)
    (hres : ∀ r ∈ visitResult C x t st, r ∈ res) :
    ∃ vs φ, some (vs, φ) ∈ res ∧ quantVal M .ex vs (fun τ' => M.truth (eval M τ' φ)) ρ := by
  have key : ∀ u, unifierOf C x t = some (some u) → (∀ eqs, u.asEqualities = some eqs → SatEqs M τ eqs) →
      ∃ vs φ, some (vs, φ) ∈ res ∧ quantVal M .ex vs (fun τ' => M.truth (eval M τ' φ)) ρ := by
    intro u h1 h2
    have h3 : ∀ g, unifGuard C x t u = some g → ∀ φ ∈ g, M.truth (eval M τ φ) := by
      intro g hg
      have hE : ∀ g, (u.asEqualities).bind (eqFormulas C.L) = some g → ∀ φ ∈ g, M.truth (eval M τ φ) := by
        intro g hg
        obtain ⟨eqs, e1, e2⟩ := Option.bind_eq_some_iff.1 hg
        exact eqFormulas_truth hsem e2 (h2 eqs e1)
      unfold unifGuard at hg
      split at hg
      · split at hg
        · obtain ⟨a, ha, rfl⟩ := Option.map_eq_some_iff.1 hg
          intro φ hφ
          rw [List.mem_singleton] at hφ
          subst hφ
          unfold subFormula at ha
          split at ha
          · obtain ⟨f, hf, rfl⟩ := Option.map_eq_some_iff.1 ha
            simp only [eval, evals, ← heq]
            exact hu.refl _ f hf _
          · cases ha
            simp only [eval, evals]
            exact hsem.tru
        · exact hE g hg
      · exact hE g hg
    unfold visitResult at hres
    rw [h1] at hres
    simp only at hres
    cases hg : unifGuard C x t u with
    | none => rw [hg] at hres; exact absurd (hres none (by simp)) hn
    | some g =>
      rw [hg] at hres
      refine ⟨_, _, hres _ (List.mem_singleton_self _), quantVal_ex_of M _ τ ?_ _ ρ hc.off hc.dom⟩
      simp only [Lang.ands, eval, evals_eq]
      rw [hsem.and]
      intro d hd
      obtain ⟨φ, hφ, rfl⟩ := List.mem_map.1 hd
      rcases List.mem_append.1 hφ with hφ | hφ
      · exact h3 g hg φ hφ
      · split at hφ
        · simp only [Option.mem_toList] at hφ
          exact hc.guard φ hφ
        · cases hφ
  cases hx : x with
  | var v =>
    subst hx
    refine key (Unif.oneVariable v t) (by simp [unifierOf, ht]) ?_
    intro eqs he
    simp [Unif.oneVariable, Unif.asEqualities] at he
    subst he
    exact SatEqs.one.2 heq
  | app f as =>
    have e : unifierOf C x t = mgu C.mfuel x t := by simp [unifierOf, ht, hx]
    cases hm : mgu C.mfuel x t with
    | none =>
      exfalso
      refine hn (hres none ?_)
      simp [visitResult, e, hm]
    | some o =>
      cases o with
      | none => exact absurd heq (hu.complete t hv ht hm τ)
      | some u =>
        exact key u (e.trans hm) (fun eqs he => C07_equalities_most_general_on M S hu.inj τ _ x t u eqs hu.pattern
          (hu.terms t hv ht) hm he heq)
  | quant q vs b =>
    have := hu.pattern
    rw [hx] at this
    cases this

omit [DecidableEq F] in
/-- A non-variable term keeps its sort when variables are replaced. -/
theorem unified_apply {f : F} {args : List (Fm F)} (h : MayBe C.L f C.A.sort) (θ : Subst F) :
    C.A.unified C.L (Subst.apply θ (.app f args)) = true := by
  rcases h with h | ⟨h, h'⟩
  · simp [Aux.unified, Subst.apply, Lang.sortOf, h]
  · have : (fun l => C.L.infer f l) = fun _ => none := funext h'
    simp only [Aux.unified, Subst.apply, Lang.sortOf, h]
    cases Lang.sortsOf C.L (Subst.applys θ args) <;> simp [h']

end final

/-! ### C26 -/

section main
variable [DecidableEq F] {C : SearchCfg F} {cells : List (GCell F)} {M : Str F D} {S : F → Prop}
  {roots : List (Fm F × List Var)} {outer : Nat → Prop} {part : Fm F → Fm F → Prop} {x : Fm F}

/-- **C26, C30: the search is complete.** Whatever occurs in a root — in it, in the messages and conditions
of the earlier steps its inputs are made of, in what cells it reads have stored, and so on — with the sort
searched for and the value of the pattern is found: one of the results of a search that ends without panic
holds, for some values of the variables it lists. `_partial`: calls of `exec` are not followed, the roots and
contents have no first-order quantifier, the variables introduced by the search must not be variables of
the pattern or of the roots (`NoClash`), the dependency graph must report enough (`GraphOK`) and unification
must not miss unifiable terms (`UnifOK`); each of these is a defect of the code, see the counterexamples. -/
theorem C26_search_complete_partial (hsem : Sem C.L M) (hp : ProtOK C.L C.steps cells) (hsh : Shrinks C.A)
    (hde : Descends C.A part) (htm : Timed C.L C.steps cells M part) (hG : GraphOK C.L C.steps cells C.G M part)
    (hsub : ∀ r anc, C.G.ancestors r = some anc → ∀ d ∈ anc.cells, d ∈ cells)
    (hr : ∀ t bv, (t, bv) ∈ roots → NoQuant t ∧ VarsIn outer bv t ∧ (bv.map Var.id).Nodup)
    (hcl : NoClash C .all roots outer) (hx : ∀ v ∈ x.vars, outer v.id)
    (hu : UnifOK C M S (fun t => ∃ st, Elem C .all roots t st) x)
    {fuel : Nat} {res : List (Option (List Var × Fm F))} (hs : search C fuel x .all roots = some res) (hn : none ∉ res)
    {r : Fm F} {bv : List Var} (hroot : (r, bv) ∈ roots) {ρ ρ₀ κ : Valn D} (hoff : ∀ i, i ∉ bv.map Var.id → ρ₀ i = ρ i)
    (hdom : InDom M bv ρ₀) {f : F} {args : List (Fm F)}
    (ho : Occurs C.L C.steps M part MacroRef.notExec (r, ρ₀) (.app f args, κ)) (hf : MayBe C.L f C.A.sort)
    (hv : eval M κ (.app f args) = eval M ρ x) :
    ∃ vs φ, some (vs, φ) ∈ res ∧ quantVal M .ex vs (fun τ => M.truth (eval M τ φ)) ρ := by
  have hinv : ∀ t st, Elem C .all roots t st → Inv outer t st := fun t st he => inv_elem hp hsh hsub hr hcl he
  have hsearch := fun t st (he : Elem C .all roots t st) => search_elem C fuel x .all roots res hs hn he
  have h0 : Cov C .all roots M ρ (fun f => f = .all) (r, ρ₀) :=
    ⟨r, ⟨.all, bv, none⟩, ρ₀, fun v => .var v, .root hroot, rfl, ⟨hoff, hdom, fun g hg => by cases hg⟩,
      (apply_id r).symm, fun v _ => rfl⟩
  rcases cov_occurs hp hsem hinv hcl (fun t st he => (hsearch t st he).1) hde htm hG hsub h0 ho with ⟨v, h⟩ | h
  · cases h
  · obtain ⟨t, st, τ, θ, he, _, hc, rfl, hm⟩ := h
    have hi := hinv _ _ he
    refine visited_result hsem hu ⟨st, he⟩ (unified_apply hf θ) hc ?_ hn (hsearch _ _ he).2
    rw [eval_match (NoQuant.of_apply hi.noQuant) hm, hv]
    apply eval_agree_vars
    intro v hv'
    refine hc.off v.id (fun h' => ?_)
    obtain ⟨w, hw, e⟩ := List.mem_map.1 h'
    exact hcl.bound _ _ he w hw (e ▸ hx v hv')

/-! ### C25 -/

/-- The contents of the protocol, with values for their variables. -/
inductive IsContent (steps : List (GStep F)) (cells : List (GCell F)) (M : Str F D) : Clo F D → Prop
  | message {s σ} (hs : s ∈ steps) (hd : InDom M s.vars σ) : IsContent steps cells M (s.message, σ)
  | condition {s σ} (hs : s ∈ steps) (hd : InDom M s.vars σ) : IsContent steps cells M (s.condition, σ)
  | assign {c a σ} (hc : c ∈ cells) (ha : a ∈ c.assigns) (hd : InDom M (a.step.vars ++ a.fresh) σ) :
      IsContent steps cells M (a.content, σ)

omit [DecidableEq F] in
theorem content_cov {fl : Flags} (hp : ProtOK C.L C.steps cells) (ρ : Valn D)
    (hroots : ∀ p ∈ topLevel C.steps cells, p ∈ roots) {y : Clo F D} (h : IsContent C.steps cells M y) :
    Cov C fl roots M ρ (fun f => f = fl) y := by
  obtain ⟨t, σ, vs, rfl, hm, hd, hv⟩ : ∃ t σ vs, y = (t, σ) ∧ (t, vs) ∈ topLevel C.steps cells ∧ InDom M vs σ ∧
      ∀ v ∈ t.vars, v.id ∈ vs.map Var.id := by
    cases h with
    | @message s σ hs hd =>
      refine ⟨_, σ, s.vars, rfl, List.mem_append_left _ (List.mem_flatMap.2 ⟨s, hs, ?_⟩), hd, (hp.message s hs).2⟩
      simp
    | @condition s σ hs hd =>
      refine ⟨_, σ, s.vars, rfl, List.mem_append_left _ (List.mem_flatMap.2 ⟨s, hs, ?_⟩), hd, (hp.condition s hs).2⟩
      simp
    | @assign c a σ hc ha hd =>
      refine ⟨_, σ, _, rfl, List.mem_append_right _ (List.mem_flatMap.2 ⟨c, hc, ?_⟩), hd, (hp.content c hc a ha).2⟩
      exact List.mem_map.2 ⟨a, ha, rfl⟩
  let τ : Valn D := fun i => if i ∈ vs.map Var.id then σ i else ρ i
  have e : ∀ i, i ∈ vs.map Var.id → τ i = σ i := by intro i hi; simp only [τ, if_pos hi]
  refine ⟨t, ⟨fl, vs, none⟩, τ, fun v => .var v, .root (hroots _ hm), rfl, ⟨?_, ?_, fun g hg => by cases hg⟩,
    (apply_id t).symm, ?_⟩
  · intro i hi; simp only [τ]; exact if_neg hi
  · intro v hv'; rw [e _ (List.mem_map_of_mem hv')]; exact hd v hv'
  · intro v hv'; simp only [eval]; exact e _ (hv v hv')

/-- **C25: the key search is complete.** When everything the protocol computes or stores is a root, what
occurs in a root in any execution, whatever macros (`exec` included) lead to it, is found even though no
macro is unfolded. `_partial`: as for `C26_search_complete_partial` (but no assumption on time or on the
dependency graph is needed). -/
theorem C25_search_complete_partial (fl : Flags) (htaq : fl.taq = true)
    (hp : ProtOK C.L C.steps cells) (hsem : Sem C.L M) (hsh : Shrinks C.A)
    (hde : Descends C.A part) (hsub : ∀ r anc, C.G.ancestors r = some anc → ∀ d ∈ anc.cells, d ∈ cells)
    (hroots : ∀ p ∈ topLevel C.steps cells, p ∈ roots)
    (hr : ∀ t bv, (t, bv) ∈ roots → NoQuant t ∧ VarsIn outer bv t ∧ (bv.map Var.id).Nodup)
    (hcl : NoClash C fl roots outer) (hx : ∀ v ∈ x.vars, outer v.id)
    (hu : UnifOK C M S (fun t => ∃ st, Elem C fl roots t st) x)
    {fuel : Nat} {res : List (Option (List Var × Fm F))} (hs : search C fuel x fl roots = some res) (hn : none ∉ res)
    {r : Fm F} {bv : List Var} (hroot : (r, bv) ∈ roots) {ρ ρ₀ κ : Valn D} (hoff : ∀ i, i ∉ bv.map Var.id → ρ₀ i = ρ i)
    (hdom : InDom M bv ρ₀) {f : F} {args : List (Fm F)}
    (ho : Occurs C.L C.steps M part (fun _ => True) (r, ρ₀) (.app f args, κ)) (hf : MayBe C.L f C.A.sort)
    (hv : eval M κ (.app f args) = eval M ρ x) :
    ∃ vs φ, some (vs, φ) ∈ res ∧ quantVal M .ex vs (fun τ => M.truth (eval M τ φ)) ρ := by
  have hinv : ∀ t st, Elem C fl roots t st → Inv outer t st := fun t st he => inv_elem hp hsh hsub hr hcl he
  have hsearch := fun t st (he : Elem C fl roots t st) => search_elem C fuel x fl roots res hs hn he
  have key : ∀ y, Occurs C.L C.steps M part (fun _ => True) (r, ρ₀) y →
      (∃ v, y.1 = .var v) ∨ Cov C fl roots M ρ (fun f => f = fl) y := by
    intro y hy
    induction hy with
    | refl =>
      exact .inr ⟨r, ⟨fl, bv, none⟩, ρ₀, fun v => .var v, .root hroot, rfl, ⟨hoff, hdom, fun g hg => by cases hg⟩,
        (apply_id r).symm, fun v _ => rfl⟩
    | @tail y z _ hyz ih =>
      rcases hyz with (hl | hl) | ⟨r, T, _, hca, hyi⟩
      · rcases ih with ⟨v, h⟩ | h
        · obtain ⟨t, κ'⟩ := y
          cases h
          cases hl with
          | part hpa => exact absurd hpa (hde.var _ _)
        · exact cov_plain hp hinv hcl (fun t st he => (hsearch t st he).1) hde (by rintro _ rfl; exact htaq) h hl
      · refine .inr (content_cov hp ρ hroots ?_)
        cases hl with
        | msg _ hs hd _ => exact .message hs hd
        | cond _ hs hd _ => exact .condition hs hd
      · refine .inr (content_cov hp ρ hroots ?_)
        cases hyi with
        | inputMsg hs hd _ => exact .message hs hd
        | inputCond hs hd _ => exact .condition hs hd
        | exec hs hd _ => exact .condition hs hd
        | cell ha hd _ =>
          cases hca with
          | cell hk _ => exact .assign (hp.cells _ _ hk) ha hd
  rcases key _ ho with ⟨v, h⟩ | h
  · cases h
  · obtain ⟨t, st, τ, θ, he, _, hc, rfl, hm⟩ := h
    have hi := hinv _ _ he
    refine visited_result hsem hu ⟨st, he⟩ (unified_apply hf θ) hc ?_ hn (hsearch _ _ he).2
    rw [eval_match (NoQuant.of_apply hi.noQuant) hm, hv]
    apply eval_agree_vars
    intro v hv'
    refine hc.off v.id (fun h' => ?_)
    obtain ⟨w, hw, e⟩ := List.mem_map.1 h'
    exact hcl.bound _ _ he w hw (e ▸ hx v hv')

end main

end Dep
end CV
