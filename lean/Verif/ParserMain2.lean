import Verif.ParserMain
/-
The elaborator respects the meaning of surface terms: binders, macros, and the whole.
-/
set_option linter.unusedSimpArgs false
namespace CV
namespace Prs
open Fm

/-! ## `let` -/

theorem mem_free_occ {F : Type} {v : Var} {f : Fm F} (h : v ∈ f.free) : OccursFree v f := ((mem_freeIn v f []).1 h).2

theorem parseLet_good {E : Env} {p : Realm → Px → Tm → St → PRes} (hp : PGood E p) {r es b t₁ t₂ st φ st' Γ L Dd}
    (hsc : Sc Γ Dd st.bvars) (hL : ∀ x, x ∈ L ↔ x ∈ Γ.map Prod.fst) (hc : Clean E r L Dd (.letin b t₁ t₂))
    (h : parseLet p E r es b t₁ t₂ st = .ok (φ, st')) : Good E r Γ (.letin b t₁ t₂) φ st st' := by
  cases hc with
  | letin hs hr hfr hc1 hc2 =>
  rename_i x s so
  simp only [parseLet] at h
  obtain ⟨⟨v, sv⟩, hv, h⟩ := Out.bind_ok h
  obtain ⟨⟨φ₁, s₁⟩, h₁, h⟩ := Out.bind_ok h
  obtain ⟨⟨φ₂, s₂⟩, h₂, h⟩ := Out.bind_ok h
  cases h
  obtain ⟨so', hs', rfl, rfl⟩ := parseBinding_ok hv
  rw [hs] at hs'
  cases hs'
  have hxb : x ∉ st.bvars.map Prod.fst := by
    cases hE : E.shadowing with
    | true => exact hsc.not_mem (fun h => (hfr hE).1 ((hL x).2 h)) (hfr hE).2
    | false => exact parseBinding_fresh hE hv
  have g1 := hp r _ t₁ _ Γ L (x :: Dd) φ₁ s₁ (hsc.pushDead x so) hL hc1 h₁
  obtain ⟨lk1, e1, n1⟩ := g1.bv
  have sc2 : Sc ((x, ⟨st.bvars.length, so⟩) :: Γ) (leak t₁ ++ Dd) s₁.bvars := by
    rw [e1, ← n1]
    exact (hsc.push hxb so).extend (by have := g1.ids; rw [e1] at this; exact this)
  have g2 := hp r es t₂ s₁ _ (x :: L) _ φ₂ s₂ sc2 (by intro y; simp [hL]) hc2 h₂
  obtain ⟨lk2, e2, n2⟩ := g2.bv
  have hlen : st.bvars.length < s₁.bvars.length := by rw [e1]; simp
  have hΓlt := hsc.lt
  have hfix : ∀ y ∈ φ₂.bound, y.id ≠ st.bvars.length := fun y hy => by have := g2.bnd y hy; omega
  have hone : ∀ w : Var, w.id ≠ st.bvars.length → Subst.oneVar st.bvars.length φ₁ w = .var w := by
    intro w hw; simp [Subst.oneVar, hw]
  have hone' : ∀ w : Var, w.id = st.bvars.length → Subst.oneVar st.bvars.length φ₁ w = φ₁ := by
    intro w hw; simp [Subst.oneVar, hw]
  refine ⟨⟨(x, ⟨st.bvars.length, so⟩) :: (lk1 ++ lk2), ?_, ?_⟩, g2.ids, ?_, ?_, ?_, ?_, ?_⟩
  · rw [e2, e1]; simp
  · simp [n1, n2, leak]
  · exact g1.tbl.trans g2.tbl
  · intro u hu
    obtain ⟨w, hw, hu⟩ := occ_apply _ u φ₂ (fun y hy w hw => hone w (by rw [hw]; exact hfix y hy)) hu
    by_cases hwn : w.id = st.bvars.length
    · rw [hone' w hwn] at hu
      exact g1.free u hu
    · rw [hone w hwn] at hu
      cases hu
      obtain ⟨q, hq, hqu⟩ := g2.free _ hw
      rcases List.mem_cons.1 hq with rfl | hq
      · exact absurd hqu.symm hwn
      · exact ⟨q, hq, hqu⟩
  · intro y hy
    rcases bound_apply _ y φ₂ hy with hy | ⟨w, hw, hy⟩
    · have := g2.bnd y hy; omega
    · by_cases hwn : w.id = st.bvars.length
      · rw [hone' w hwn] at hy
        have := g1.bnd y hy
        simp at this
        omega
      · rw [hone w hwn] at hy; cases hy
  · intro hn
    cases hn with
    | letin hn1 hn2 =>
    apply List.eq_nil_iff_forall_not_mem.2
    intro y hy
    rcases bound_apply _ y φ₂ hy with hy | ⟨w, hw, hy⟩
    · rw [g2.nob hn2] at hy; cases hy
    · by_cases hwn : w.id = st.bvars.length
      · rw [hone' w hwn, g1.nob hn1] at hy; cases hy
      · rw [hone w hwn] at hy; cases hy
  · intro D I hI hR ρ
    have e : eval I.M ρ (Subst.apply (Subst.oneVar st.bvars.length φ₁) φ₂) =
        eval I.M (ρ.set st.bvars.length (eval I.M ρ φ₁)) φ₂ := by
      apply eval_apply
      · intro y hy w hw
        constructor
        · intro e; exact hone w (by rw [e]; exact hfix y hy)
        · intro hne u hu
          by_cases hwn : w.id = st.bvars.length
          · rw [hone' w hwn] at hu
            obtain ⟨q, hq, hqu⟩ := g1.free u (mem_free_occ hu)
            have := hΓlt q hq
            have := g2.bnd y hy
            omega
          · rw [hone w hwn] at hu
            have := mem_free_occ hu
            cases this
            exact hne
      · intro w hw
        by_cases hwn : w.id = st.bvars.length
        · rw [hone' w hwn, hwn, Valn.set_self]
        · rw [hone w hwn, Valn.set_ne _ _ hwn]; rfl
    show eval I.M ρ (Subst.apply (Subst.oneVar st.bvars.length φ₁) φ₂) = _
    rw [e, g2.sem D I hI hR, g1.sem D I hI (hR.mono g2.tbl.pre)]
    simp only [den, hs, Option.getD_some, hr]
    congr 1
    show (x, so, _) :: envOf Γ _ = _
    rw [Valn.set_self, envOf_set _ _ _ hΓlt]

/-! ## `if then else` -/

theorem parseIte_good {E : Env} {p : Realm → Px → Tm → St → PRes} (hp : PGood E p) {r es c a b st φ st' Γ L Dd}
    (hsc : Sc Γ Dd st.bvars) (hL : ∀ x, x ∈ L ↔ x ∈ Γ.map Prod.fst) (hc : Clean E r L Dd (.ite c a b))
    (h : parseIte p r es c a b st = .ok (φ, st')) : Good E r Γ (.ite c a b) φ st st' := by
  cases hc with
  | ite hc1 hc2 hc3 =>
  simp only [parseIte] at h
  obtain ⟨⟨φ₁, s₁⟩, h₁, h⟩ := Out.bind_ok h
  obtain ⟨⟨φ₂, s₂⟩, h₂, h⟩ := Out.bind_ok h
  obtain ⟨⟨φ₃, s₃⟩, h₃, h⟩ := Out.bind_ok h
  cases h
  have g := seqP_good (E := E) (fun a : Px × Tm => p r a.1 a.2) (fun a => (r, a.2)) [(iteCond r, c), (iteBr r es, a), (iteBr r es, b)]
    (fun a => hp _ _ _) st Γ L Dd [φ₁, φ₂, φ₃] s₃ hsc hL (.cons hc1 (.cons hc2 (.cons hc3 .nil)))
    (by simp only [seqP, h₁, h₂, h₃, Out.bind])
  refine g.up ?_ (fun v => occ_app) (fun x => bound_app) ?_ ?_
  · simp [leak, leaks]
  · intro hn z hz
    cases hn with
    | ite n1 n2 n3 =>
    simp only [List.map_cons, List.map_nil, List.mem_cons, List.not_mem_nil, or_false] at hz
    rcases hz with rfl | rfl | rfl <;> assumption
  · intro D I hI ρ he
    simp only [List.map_cons, List.map_nil, List.cons.injEq, and_true] at he
    obtain ⟨e1, e2, e3⟩ := he
    simp only [eval, evals, den, e1, e2, e3]
    cases r <;> rfl

/-! ## Functions for symbolic quantifiers -/

theorem uniq_sub (l : List Var) : ∀ seen, ∀ v ∈ uniq seen l, v ∈ l := by
  induction l with
  | nil => intro seen v h; cases h
  | cons w l ih =>
    intro seen v h
    simp only [uniq] at h
    split at h
    · exact List.mem_cons_of_mem _ (ih _ v h)
    · rcases List.mem_cons.1 h with rfl | h
      · simp
      · exact List.mem_cons_of_mem _ (ih _ v h)

theorem uniq_cover (l : List Var) : ∀ seen, ∀ v ∈ l, v.id ∈ seen ∨ ∃ w ∈ uniq seen l, w.id = v.id := by
  induction l with
  | nil => intro seen v h; cases h
  | cons w l ih =>
    intro seen v h
    simp only [uniq]
    rcases List.mem_cons.1 h with rfl | h
    · split
      · left; assumption
      · right; exact ⟨v, by simp, rfl⟩
    · split
      · exact ih seen v h
      · rcases ih (w.id :: seen) v h with h | ⟨u, hu, e⟩
        · rcases List.mem_cons.1 h with h | h
          · right; exact ⟨w, by simp, h.symm⟩
          · left; exact h
        · right; exact ⟨u, List.mem_cons_of_mem _ hu, e⟩

theorem taFree_mem {bs : List Var} {fs : List (Fm PF)} {w : Var} (h : w ∈ taFree bs fs) :
    (∃ f ∈ fs, OccursFree w f) ∧ w.id ∉ bs.map Var.id := by
  simp only [taFree, List.mem_filter, Bool.not_eq_true', List.contains_eq_mem, decide_eq_false_iff_not] at h
  obtain ⟨f, hf, hw⟩ := List.mem_flatMap.1 (uniq_sub _ _ _ h.1)
  exact ⟨⟨f, hf, mem_free_occ hw⟩, h.2⟩

theorem taFree_cover {bs : List Var} {fs : List (Fm PF)} {v : Var} {f : Fm PF} (hf : f ∈ fs) (hv : OccursFree v f)
    (hb : v.id ∉ bs.map Var.id) : ∃ w ∈ taFree bs fs, w.id = v.id := by
  have : v ∈ fs.flatMap Fm.free := List.mem_flatMap.2 ⟨f, hf, (mem_freeIn v f []).2 ⟨by simp, hv⟩⟩
  rcases uniq_cover _ [] v this with h | ⟨w, hw, e⟩
  · cases h
  · refine ⟨w, ?_, e⟩
    simp only [taFree, List.mem_filter, Bool.not_eq_true', List.contains_eq_mem, decide_eq_false_iff_not]
    exact ⟨hw, by rw [e]; exact hb⟩

theorem occ_vars {g : PF} {l : List Var} {v : Var} (h : OccursFree v (.app g (l.map .var))) : v ∈ l := by
  obtain ⟨a, ha, h⟩ := occ_app h
  obtain ⟨w, hw, rfl⟩ := List.mem_map.1 ha
  cases h
  exact hw

theorem bound_vars {g : PF} {l : List Var} : (Fm.app g (l.map Fm.var)).bound = [] := by
  apply List.eq_nil_iff_forall_not_mem.2
  intro x hx
  obtain ⟨a, ha, h⟩ := bound_app hx
  obtain ⟨w, hw, rfl⟩ := List.mem_map.1 ha
  cases h

theorem eval_vars {D : Type} (M : Str PF D) (ρ : Valn D) (g : PF) (l : List Var) :
    eval M ρ (.app g (l.map .var)) = M.fn g (l.map fun v => ρ v.id) := by
  simp only [eval, evals_eq, List.map_map]
  rfl

theorem sorted_names (E : Env) (vs : List Bnd) : (sorted E vs).map Prod.fst = vs.map Prod.fst := by
  simp [sorted]

theorem not_block {n : Nat} {l : List (String × Srt)} {Γ : List (String × Var)} {v : Var}
    (h : ∃ p ∈ extS (numFrom n l) Γ, p.2.id = v.id) (hb : v.id ∉ ((numFrom n l).map Prod.snd).map Var.id) :
    ∃ p ∈ Γ, p.2.id = v.id := by
  obtain ⟨p, hp, e⟩ := h
  rcases (mem_extS _ _ _).1 hp with hp | hp
  · exact absurd (by rw [← e]; exact List.mem_map_of_mem (List.mem_map_of_mem hp)) hb
  · exact ⟨p, hp, e⟩

/-! ## Quantifiers and `find` -/

theorem taFree_ok {bound : List Var} {fs : List (Fm PF)} {f : Fm PF} (hf : f ∈ fs) {v : Var} (h : OccursFree v f) :
    v.id ∈ bound.map Var.id ∨ v.id ∈ (taFree bound fs).map Var.id := by
  by_cases hb : v.id ∈ bound.map Var.id
  · exact .inl hb
  · obtain ⟨w, hw, e⟩ := taFree_cover hf h hb
    exact .inr (e ▸ List.mem_map_of_mem hw)

theorem parseQuant_good {E : Env} {p : Realm → Px → Tm → St → PRes} (hp : PGood E p) {r es k vs b st φ st' Γ L Dd}
    (hsc : Sc Γ Dd st.bvars) (hL : ∀ x, x ∈ L ↔ x ∈ Γ.map Prod.fst) (hc : Clean E r L Dd (.quant k vs b))
    (h : parseQuant p E r es k vs b st = .ok (φ, st')) : Good E r Γ (.quant k vs b) φ st st' := by
  cases hc with
  | quant hfr hcb =>
  simp only [parseQuant] at h
  obtain ⟨store, _, h⟩ := Out.bind_ok h
  obtain ⟨⟨ws, s₁⟩, h₁, h⟩ := Out.bind_ok h
  obtain ⟨⟨ψ, s₂⟩, h₂, h⟩ := Out.bind_ok h
  obtain ⟨rfl, rfl⟩ := parseBindings_ok vs h₁
  have hfresh : (vs.map Prod.fst).Nodup ∧ ∀ x ∈ vs.map Prod.fst, x ∉ st.bvars.map Prod.fst := by
    cases hE : E.shadowing with
    | true => exact ⟨(hfr hE).1, fun x hx => hsc.not_mem (fun h => ((hfr hE).2 x hx).1 ((hL x).2 h)) ((hfr hE).2 x hx).2⟩
    | false => exact parseBindings_fresh (st := { st with store := store }) hE vs h₁
  have scb := hsc.block (sorted E vs) (by rw [sorted_names]; exact hfresh.1) (by rw [sorted_names]; exact hfresh.2)
  have g := hp r _ b _ _ (vs.map Prod.fst ++ L) Dd ψ s₂ scb
    (by intro x; rw [names_extS, numFrom_names, sorted_names]; simp only [List.mem_append, hL]) hcb h₂
  obtain ⟨lk, e1, n1⟩ := g.bv
  have htake : s₂.bvars.take st.bvars.length = st.bvars := by
    rw [e1]
    simp
  have hΓlt := hsc.lt
  have hsem : ∀ (D : Type) (I : Sem D), I.Ok E → I.Real s₂.tbl → ∀ (ρ : Valn D) (ds : List D),
      eval I.M (setMany I.junk ρ ((numFrom st.bvars.length (sorted E vs)).map Prod.snd) ds) ψ =
        den E I r (ext I.junk (sorted E vs) ds (envOf Γ ρ)) b := by
    intro D I hI hR ρ ds
    rw [g.sem D I hI hR, envOf_block _ _ _ _ _ _ hΓlt]
  cases r with
  | ev =>
    dsimp only at h
    have hφ := (Prod.mk.inj (Out.ok.inj h)).1
    have hst := (Prod.mk.inj (Out.ok.inj h)).2
    subst hφ hst
    refine ⟨⟨[], ?_, rfl⟩, ?_, g.tbl, ?_, ?_, ?_, ?_⟩
    · simp [htake]
    · rw [htake]; exact hsc.ids
    · intro v hv
      cases hv with
      | quant hb hv => exact not_block (g.free v hv) hb
    · intro v hv
      simp only [bound, List.mem_append] at hv
      rcases hv with hv | hv
      · obtain ⟨q, hq, rfl⟩ := List.mem_map.1 hv
        exact (numFrom_ge _ _ q hq).1
      · have := g.bnd v hv
        simp only [List.length_append] at this
        omega
    · intro hn; cases hn
    · intro D I hI hR ρ
      simp only [eval, den, if_true]
      congr 1
      rw [quantVal_eq I.junk, numFrom_sorts]
      have : (fun ds => I.M.truth (eval I.M (setMany I.junk ρ ((numFrom st.bvars.length (sorted E vs)).map Prod.snd) ds) ψ)) =
          fun ds => I.M.truth (den E I .ev (ext I.junk (sorted E vs) ds (envOf Γ ρ)) b) := by
        funext ds
        rw [hsem D I hI hR]
      rw [this]
      cases k <;> rfl
  | sym =>
    dsimp only [allocTA] at h
    have hφ := (Prod.mk.inj (Out.ok.inj h)).1
    have hst := (Prod.mk.inj (Out.ok.inj h)).2
    subst hφ hst
    refine ⟨⟨[], ?_, rfl⟩, ?_, ?_, ?_, ?_, ?_, ?_⟩
    · simp [htake, allocTA]
    · simp only [allocTA, htake]; exact hsc.ids
    · exact g.tbl.trans (.add _ fun v hv => taFree_ok (by simp) hv)
    · intro v hv
      obtain ⟨⟨f, hf, ho⟩, hb⟩ := taFree_mem (occ_vars hv)
      simp only [List.mem_singleton] at hf
      subst hf
      exact not_block (g.free v ho) hb
    · intro v hv; rw [bound_vars] at hv; cases hv
    · intro _; exact bound_vars
    · intro D I hI hR ρ
      have hR' : I.Real s₂.tbl := hR.mono (List.prefix_append _ _)
      have := hR s₂.tbl.length _ (by simp only [allocTA]; rw [List.getElem?_append_right (Nat.le_refl _)]; simp; rfl)
      simp only at this
      show eval I.M ρ (.app (.taq s₂.tbl.length) _) = _
      rw [eval_vars, this ρ]
      simp only [den]
      rw [if_neg (by simp), numFrom_sorts]
      have : (fun ds => eval I.M (setMany I.junk ρ ((numFrom st.bvars.length (sorted E vs)).map Prod.snd) ds) ψ) =
          fun ds => den E I .sym (ext I.junk (sorted E vs) ds (envOf Γ ρ)) b := by
        funext ds
        rw [hsem D I hI hR']
      rw [this]
      cases k <;> rfl

theorem parseFind_good {E : Env} {p : Realm → Px → Tm → St → PRes} (hp : PGood E p) {r es vs c a b st φ st' Γ L Dd}
    (hsc : Sc Γ Dd st.bvars) (hL : ∀ x, x ∈ L ↔ x ∈ Γ.map Prod.fst) (hc : Clean E r L Dd (.find vs c a b))
    (h : parseFind p E r es vs c a b st = .ok (φ, st')) : Good E r Γ (.find vs c a b) φ st st' := by
  cases hc with
  | find hcb hfr hcc hca =>
  simp only [parseFind] at h
  obtain ⟨store, _, h⟩ := Out.bind_ok h
  obtain ⟨⟨ψb, sb⟩, hb, h⟩ := Out.bind_ok h
  obtain ⟨⟨ws, s₁⟩, h₁, h⟩ := Out.bind_ok h
  obtain ⟨⟨ψc, sc⟩, hcc', h⟩ := Out.bind_ok h
  obtain ⟨⟨ψa, sa⟩, ha, h⟩ := Out.bind_ok h
  obtain ⟨rfl, rfl⟩ := parseBindings_ok vs h₁
  have gb := hp .sym _ b { st with store := store } Γ L Dd ψb sb hsc hL hcb hb
  have scb : Sc Γ (leak b ++ Dd) sb.bvars := gb.sc hsc
  have hLt := scb.lt
  have hfresh : (vs.map Prod.fst).Nodup ∧ ∀ x ∈ vs.map Prod.fst, x ∉ sb.bvars.map Prod.fst := by
    cases hE : E.shadowing with
    | true => exact ⟨(hfr hE).1, fun x hx => scb.not_mem (fun h => ((hfr hE).2 x hx).1 ((hL x).2 h)) ((hfr hE).2 x hx).2⟩
    | false => exact parseBindings_fresh hE vs h₁
  have scv := scb.block (sorted E vs) (by rw [sorted_names]; exact hfresh.1) (by rw [sorted_names]; exact hfresh.2)
  have hL' : ∀ x, x ∈ vs.map Prod.fst ++ L ↔ x ∈ (extS (numFrom sb.bvars.length (sorted E vs)) Γ).map Prod.fst := by
    intro x; rw [names_extS, numFrom_names, sorted_names]; simp only [List.mem_append, hL]
  have gc := hp .sym _ c _ _ _ _ ψc sc scv hL' hcc hcc'
  have ga := hp .sym _ a _ _ _ _ ψa sa (gc.sc scv) hL' hca ha
  obtain ⟨lkb, eb, nb⟩ := gb.bv
  obtain ⟨lkc, ec, nc⟩ := gc.bv
  obtain ⟨lka, ea, na⟩ := ga.bv
  have htake : sa.bvars.take sb.bvars.length = sb.bvars := by
    rw [ea, ec]; simp
  dsimp only [allocTA] at h
  have hφ := (Prod.mk.inj (Out.ok.inj h)).1
  have hst := (Prod.mk.inj (Out.ok.inj h)).2
  subst hφ hst
  have hbnd : ∀ (l : List Var) (k : PF), (wrapMsg r (.app k (l.map .var))).bound = [] := by
    intro l k
    cases r with
    | sym => exact bound_vars
    | ev => simp only [wrapMsg]; rw [tryEval_bound]; exact bound_vars
  refine ⟨⟨lkb, ?_, nb⟩, ?_, ?_, ?_, ?_, ?_, ?_⟩
  · show sa.bvars.take sb.bvars.length = st.bvars ++ lkb
    rw [htake]; exact eb
  · simp only [htake]; exact gb.ids
  · refine gb.tbl.trans (gc.tbl.trans (ga.tbl.trans (.add _ ⟨fun b hb v hv => ?_, fun v hv => ?_⟩)))
    · simp only [List.mem_cons, List.not_mem_nil, or_false] at hb
      rcases hb with rfl | rfl
      · exact taFree_ok (by simp) hv
      · exact taFree_ok (by simp) hv
    · refine (taFree_ok (bound := (numFrom sb.bvars.length (sorted E vs)).map Prod.snd) (fs := [ψc, ψa, ψb]) (by simp) hv).resolve_left
        fun hm => ?_
      obtain ⟨p, hp, e⟩ := gb.free v hv
      have := hLt p hp
      simp only [List.map_map, List.mem_map, Function.comp] at hm
      obtain ⟨q, hq, e'⟩ := hm
      have := (numFrom_ge _ _ q hq).1
      omega
  · intro v hv
    have hv' : v ∈ taFree ((numFrom sb.bvars.length (sorted E vs)).map Prod.snd) [ψc, ψa, ψb] := by
      cases r with
      | sym => exact occ_vars hv
      | ev => simp only [wrapMsg] at hv; exact occ_vars (tryEval_occ hv)
    obtain ⟨⟨f, hf, ho⟩, hb⟩ := taFree_mem hv'
    simp only [List.mem_cons, List.not_mem_nil, or_false] at hf
    rcases hf with rfl | rfl | rfl
    · exact not_block (gc.free v ho) hb
    · exact not_block (ga.free v ho) hb
    · exact gb.free v ho
  · intro v hv; simp only [allocTA, hbnd] at hv; cases hv
  · intro _; simp only [allocTA, hbnd]
  · intro D I hI hR ρ
    have hRa : I.Real sa.tbl := hR.mono (List.prefix_append _ _)
    have hRc : I.Real sc.tbl := hRa.mono ga.tbl.pre
    have hRb : I.Real sb.tbl := hRc.mono gc.tbl.pre
    have := hR sa.tbl.length _ (by simp only [allocTA]; rw [List.getElem?_append_right (Nat.le_refl _)]; simp; rfl)
    simp only at this
    have hev : eval I.M ρ (.app (.taq sa.tbl.length)
        ((taFree ((numFrom sb.bvars.length (sorted E vs)).map Prod.snd) [ψc, ψa, ψb]).map .var)) =
        I.symFind ((sorted E vs).map (·.2)) (fun ds => den E I .sym (ext I.junk (sorted E vs) ds (envOf Γ ρ)) c)
          (fun ds => den E I .sym (ext I.junk (sorted E vs) ds (envOf Γ ρ)) a) (den E I .sym (envOf Γ ρ) b) := by
      rw [eval_vars, this ρ, numFrom_sorts, gb.sem D I hI hRb]
      have e1 : (fun ds => eval I.M (setMany I.junk ρ ((numFrom sb.bvars.length (sorted E vs)).map Prod.snd) ds) ψc) =
          fun ds => den E I .sym (ext I.junk (sorted E vs) ds (envOf Γ ρ)) c := by
        funext ds
        rw [gc.sem D I hI hRc, envOf_block _ _ _ _ _ _ hLt]
      have e2 : (fun ds => eval I.M (setMany I.junk ρ ((numFrom sb.bvars.length (sorted E vs)).map Prod.snd) ds) ψa) =
          fun ds => den E I .sym (ext I.junk (sorted E vs) ds (envOf Γ ρ)) a := by
        funext ds
        rw [ga.sem D I hI hRa, envOf_block _ _ _ _ _ _ hLt]
      rw [e1, e2]
    cases r with
    | sym =>
      simp only [den]
      rw [if_neg (by simp)]
      exact hev
    | ev =>
      simp only [den, if_true]
      simp only [wrapMsg]
      rw [tryEval_eval, hev]

/-! ## Variables and constants -/

theorem parseCvar_good {E : Env} {p : Realm → Px → Tm → St → PRes} (hp : PGood E p) {r es x st φ st' Γ L Dd}
    (hsc : Sc Γ Dd st.bvars) (hL : ∀ x, x ∈ L ↔ x ∈ Γ.map Prod.fst) (hc : Clean E r L Dd (.cvar x))
    (h : parseApplication p E r es x none st = .ok (φ, st')) : Good E r Γ (.cvar x) φ st st' := by
  cases hc with
  | cvarVar hx =>
    have hx' := (hL x).1 hx
    have hlook := fun (D : Type) (ρ : Valn D) => envOf_lookup hsc ρ x hx'
    obtain ⟨v, hf, hm, _⟩ := hlook Nat (fun i => i)
    simp only [parseApplication, hf, parseVar] at h
    have hden : ∀ (D : Type) (I : Sem D) (ρ : Valn D), den E I r (envOf Γ ρ) (.cvar x) =
        if r = .ev then I.evalAt v.sort (ρ v.id) else ρ v.id := by
      intro D I ρ
      obtain ⟨v', hf', _, hl⟩ := hlook D ρ
      rw [hf] at hf'
      cases hf'
      simp only [den, hl]
    split at h
    · cases h
    · split at h
      · split at h
        · cases h
        · rename_i s hev g hg
          obtain ⟨store, _, h⟩ := Out.bind_ok h
          cases h
          refine ⟨⟨[], by simp, rfl⟩, hsc.ids, .refl _, ?_, ?_, ?_, ?_⟩
          · intro w hw
            have := occ_app1 hw
            cases this
            exact ⟨_, hm, rfl⟩
          · intro w hw; rw [bound_app1] at hw; cases hw
          · intro _; rw [bound_app1]; rfl
          · intro D I hI hR ρ
            rw [hden, if_pos rfl]
            have : eval I.M ρ (.app g [.var v]) = I.M.fn g [ρ v.id] := rfl
            rw [this]
            cases hvs : v.sort <;> rw [hvs] at hg <;> simp only [evalSym, Option.some.injEq, reduceCtorEq] at hg
            · subst hg; rfl
            · subst hg; rfl
      · rename_i hne
        obtain ⟨u, _, h⟩ := Out.bind_ok h
        cases h
        refine ⟨⟨[], by simp, rfl⟩, hsc.ids, .refl _, ?_, ?_, ?_, ?_⟩
        · intro w hw
          cases hw
          exact ⟨_, hm, rfl⟩
        · intro w hw; cases hw
        · intro _; rfl
        · intro D I hI hR ρ
          rw [hden]
          show ρ v.id = _
          split
          · rename_i hr
            subst hr
            have : evaluated v.sort = none := by
              cases hev : evaluated v.sort with
              | none => rfl
              | some s => exact (hne s hev rfl).elim
            cases hvs : v.sort <;> rw [hvs] at this <;> simp [evaluated] at this <;> rfl
          · rfl
  | cvarFun hx hxD =>
    have hx' : x ∉ Γ.map Prod.fst := fun h => hx ((hL x).2 h)
    simp only [parseApplication, find_none (hsc.not_mem hx' hxD)] at h
    obtain ⟨i, hi, h⟩ := Out.bind_ok h
    have hi := Out.ofOption_ok hi
    have ha : i.sig.arityOk ([] : List Tm).length = true := by
      simp only [parseApp] at h
      obtain ⟨y, hy, h⟩ := Out.bind_ok h
      simp only [List.zip_nil_right, parseList] at hy
      cases hy
      split at h
      · assumption
      · cases h
    refine parseApp_up hp hsc hL ha .nil h rfl (fun _ a ha => by cases ha) ?_
    intro D I ρ
    rw [← funOf_eq] at hi
    simp only [den, envOf_lookup_none ρ x hx', hi]
    rfl

/-! ## Macros -/

theorem numbered_eq (ps : List (String × Srt)) : numbered ps = numFrom 0 ps := by
  have key : ∀ (l : List (String × Srt)) (n : Nat),
      (l.zipIdx n).map (fun p => (p.1.1, (⟨p.2, p.1.2⟩ : Var))) = numFrom n l := by
    intro l
    induction l with
    | nil => intro n; rfl
    | cons b l ih => intro n; simp only [List.zipIdx_cons, List.map_cons, numFrom, ih]
  exact key ps 0

theorem numFrom_append (a b : List (String × Srt)) : ∀ n, numFrom n (a ++ b) = numFrom n a ++ numFrom (n + a.length) b := by
  induction a with
  | nil => intro n; rfl
  | cons x a ih =>
    intro n
    simp only [List.cons_append, numFrom, ih, List.length_cons]
    rw [show n + 1 + a.length = n + (a.length + 1) by omega]

theorem withInput_eq (ps : List (String × Srt)) : withInput ps = numFrom 0 (ps ++ [("in", .message)]) := by
  rw [withInput, numbered_eq, numFrom_append, Nat.zero_add]
  rfl

theorem range_get (as : List (Fm PF)) (w : Var) :
    MSubst.get ((List.range as.length).zip as) w = if h : w.id < as.length then as[w.id] else .var w := by
  have key : ∀ (as : List (Fm PF)) (n : Nat), ((List.range' n as.length).zip as).find? (fun p => p.1 == w.id) =
      if h : n ≤ w.id ∧ w.id < n + as.length then some (w.id, as[w.id - n]'(by omega)) else none := by
    intro as
    induction as with
    | nil => intro n; simp
    | cons a as ih =>
      intro n
      simp only [List.length_cons, List.range'_succ, List.zip_cons_cons, List.find?_cons]
      by_cases h : n = w.id
      · subst h; simp
      · have : (n == w.id) = false := by simp [h]
        rw [this]
        simp only [ih]
        by_cases h2 : n + 1 ≤ w.id ∧ w.id < n + 1 + as.length
        · rw [dif_pos h2, dif_pos (by omega)]
          obtain ⟨k, hk⟩ : ∃ k, w.id - n = k + 1 := ⟨w.id - n - 1, by omega⟩
          have hk' : w.id - (n + 1) = k := by omega
          simp only [hk, hk', List.getElem_cons_succ]
        · rw [dif_neg h2, dif_neg (by omega)]
  simp only [MSubst.get, MSubst.maybeGet]
  rw [List.range_eq_range', key as 0]
  by_cases h : w.id < as.length
  · rw [dif_pos (by omega), dif_pos h]; simp
  · rw [dif_neg (by omega), dif_neg h]; simp

theorem Sc.body (l : List (String × Srt)) (h : (l.map Prod.fst).Nodup) : Sc (extS (numFrom 0 l) []) [] (numFrom 0 l) := by
  have h0 : Sc [] [] [] := ⟨fun i p h => (by simp at h), fun p h => (by cases h), fun p h => (by cases h)⟩
  have := h0.block l h (by intro x _; simp)
  simpa using this

/-- Inserting terms for the parameters of a body without quantifier. -/
theorem insert_good {E : Env} {r : Realm} {l : List (String × Srt)} {as : List (Fm PF)} {body : Tm} {ψ : Fm PF} {s s' : St}
    (hl : as.length = l.length) (hb : ψ.bound = []) (g : Good E r (extS (numFrom 0 l) []) body ψ s s') :
    (∀ v, OccursFree v (Subst.apply (MSubst.get ((List.range as.length).zip as)) ψ) → ∃ a ∈ as, OccursFree v a) ∧
    (∀ x ∈ (Subst.apply (MSubst.get ((List.range as.length).zip as)) ψ).bound, ∃ a ∈ as, x ∈ a.bound) ∧
    (∀ (D : Type) (I : Sem D), I.Ok E → I.Real s'.tbl → ∀ ρ : Valn D,
      eval I.M ρ (Subst.apply (MSubst.get ((List.range as.length).zip as)) ψ) =
        den E I r (ext I.junk l (as.map (eval I.M ρ)) []) body) := by
  refine ⟨?_, ?_, ?_⟩
  · intro v hv
    obtain ⟨w, hw, hv⟩ := occ_apply _ v ψ (by rw [hb]; intro x hx; cases hx) hv
    obtain ⟨q, hq, e⟩ := g.free w hw
    rcases (mem_extS _ _ _).1 hq with hq | hq
    · have := (numFrom_ge _ _ q hq).2
      have hlt : w.id < as.length := by omega
      rw [range_get, dif_pos hlt] at hv
      exact ⟨_, List.getElem_mem hlt, hv⟩
    · cases hq
  · intro x hx
    rcases bound_apply _ x ψ hx with hx | ⟨w, hw, hx⟩
    · rw [hb] at hx; cases hx
    · rw [range_get] at hx
      split at hx
      · rename_i hlt; exact ⟨_, List.getElem_mem hlt, hx⟩
      · cases hx
  · intro D I hI hR ρ
    have e : eval I.M ρ (Subst.apply (MSubst.get ((List.range as.length).zip as)) ψ) =
        eval I.M (setMany I.junk ρ ((numFrom 0 l).map Prod.snd) (as.map (eval I.M ρ))) ψ := by
      apply eval_apply
      · intro y hy; rw [hb] at hy; cases hy
      · intro w hw
        rw [setMany_num _ _ _ _ _ _ (by simp [hl]), range_get]
        by_cases h : w.id < as.length
        · rw [if_pos (by omega), dif_pos h]
          simp [List.getD_eq_getElem?_getD, h]
        · rw [if_neg (by omega), dif_neg h]; rfl
    rw [e, g.sem D I hI hR, envOf_block _ _ _ _ _ _ (by intro p hp; cases hp)]
    rfl

theorem names_body (l : List (String × Srt)) (x : String) :
    x ∈ l.map Prod.fst ↔ x ∈ (extS (numFrom 0 l) []).map Prod.fst := by
  rw [names_extS, numFrom_names]; simp

/-- `msg` and `cond`. -/
theorem parseStepMac_good {E : Env} {p : Realm → Px → Tm → St → PRes} (hp : PGood E p) {r es s i c args st φ st' Γ L Dd}
    {body : StepInfo → Tm} {t : Tm}
    (hsc : Sc Γ Dd st.bvars) (hL : ∀ x, x ∈ L ↔ x ∈ Γ.map Prod.fst)
    (hf : funOf E r s = some i) (hf' : E.functions s = some i) (hst : E.steps s = some c)
    (hsig : i.sig = .fixed (c.params.map (·.2)) .step) (hnm : i.isName = false) (hlen : args.length = c.params.length)
    (hnd : (c.params.map (·.1) ++ ["in"]).Nodup)
    (hca : CleanL E L Dd (args.map fun t => (r, t))) (hcb : Clean E r (c.params.map (·.1) ++ ["in"]) [] (body c))
    (hnb : NoBind E r (body c))
    (hlk : leak t = leaks args) (hn : NoBind E r t → ∀ a ∈ args, NoBind E r a)
    (hd : ∀ (D : Type) (I : Sem D), I.Ok E → ∀ (e : VEnv D), den E I r e t = den E I r
      (ext I.junk (c.params ++ [("in", .message)]) (args.map (den E I r e) ++ [I.M.fn .input [I.M.fn i.sym (args.map (den E I r e))]]) [])
      (body c))
    (h : parseStepMac p E r es s args body st = .ok (φ, st')) : Good E r Γ t φ st st' := by
  simp only [parseStepMac] at h
  obtain ⟨⟨ψ, s₁⟩, h₁, h⟩ := Out.bind_ok h
  simp only [parseApplication] at h₁
  rw [← funOf_eq, hf] at h₁
  obtain ⟨j, hj, h₁⟩ := Out.bind_ok h₁
  cases hj
  have hreal : i.sig.realm.getD r = r := by rw [hsig]; rfl
  obtain ⟨φs, gl, store, hψ⟩ := parseApp_good hp hsc hL (by rw [hsig]; simp [FSig.arityOk, hlen]) (by rw [hreal]; exact hca) h₁
  rw [hreal] at gl
  have hψ' : ψ = .app i.sym φs := by
    rw [hψ]
    have : i.frealm = none := by simp [FInfo.frealm, hnm, hsig, FSig.realm, realmOf]
    simp [buildApp, this, hnm]
  clear hψ
  subst hψ'
  simp only [funArgs, hst, hf'] at h
  split at h
  · rename_i hlenφ
    obtain ⟨⟨χ, s₂⟩, h₂, h⟩ := Out.bind_ok h
    have hφ := (Prod.mk.inj (Out.ok.inj h)).1
    have hst' := (Prod.mk.inj (Out.ok.inj h)).2
    clear h
    subst hφ hst'
    have hl1 : (φs ++ [Fm.app .input [.app i.sym φs]]).length = (c.params ++ [("in", Srt.message)]).length := by
      simp [hlenφ]
    have hnd' : ((c.params ++ [("in", Srt.message)]).map Prod.fst).Nodup := by simpa using hnd
    rw [withInput_eq] at h₂
    have gb := hp r es (body c) _ (extS (numFrom 0 (c.params ++ [("in", .message)])) []) _ _ χ s₂
      (Sc.body (c.params ++ [("in", .message)]) hnd')
      (by intro x; rw [← names_body]; simp) hcb h₂
    have hsub : stepSubst i.sym φs = (List.range (φs ++ [Fm.app .input [.app i.sym φs]]).length).zip
        (φs ++ [Fm.app .input [.app i.sym φs]]) := by simp [stepSubst]
    obtain ⟨i1, i2, i3⟩ := insert_good hl1 (gb.nob hnb) gb
    have hmem : ∀ (P : Fm PF → Prop), (∀ g as, P (.app g as) → ∃ a ∈ as, P a) →
        (∃ a ∈ φs ++ [Fm.app .input [.app i.sym φs]], P a) → ∃ a ∈ φs, P a := by
      intro P hP
      rintro ⟨a, ha, hPa⟩
      rcases List.mem_append.1 ha with ha | ha
      · exact ⟨a, ha, hPa⟩
      · simp only [List.mem_singleton] at ha
        subst ha
        obtain ⟨b, hb, hPb⟩ := hP _ _ hPa
        simp only [List.mem_singleton] at hb
        subst hb
        exact hP _ _ hPb
    dsimp only at *
    rw [hsub]
    have hbound : ∀ x ∈ (Subst.apply (MSubst.get ((List.range (φs ++ [Fm.app .input [.app i.sym φs]]).length).zip
        (φs ++ [Fm.app .input [.app i.sym φs]]))) χ).bound, ∃ a ∈ φs, x ∈ a.bound := fun x hx =>
      hmem (fun a => x ∈ a.bound) (fun g as => bound_app) (i2 x hx)
    refine ⟨?_, gl.ids, gl.tbl.trans gb.tbl, ?_, ?_, ?_, ?_⟩
    · have := gl.bv
      rw [hlk]
      rw [List.map_map] at this
      simpa [Function.comp_def] using this
    · intro v hv
      obtain ⟨a, ha, hv⟩ := hmem (OccursFree v) (fun g as => occ_app) (i1 v hv)
      exact gl.free a ha v hv
    · intro v hv
      obtain ⟨a, ha, hv⟩ := hbound v hv
      exact gl.bnd a ha v hv
    · intro hnt
      apply List.eq_nil_iff_forall_not_mem.2
      intro x hx
      obtain ⟨a, ha, hx⟩ := hbound x hx
      rw [gl.nob (by
        intro z hz
        obtain ⟨b, hb, rfl⟩ := List.mem_map.1 hz
        exact hn hnt b hb) a ha] at hx
      cases hx
    · intro D I hI hR ρ
      rw [i3 D I hI hR ρ, hd D I hI]
      have e : φs.map (eval I.M ρ) = args.map (den E I r (envOf Γ ρ)) := by
        rw [gl.sem D I hI (hR.mono gb.tbl.pre) ρ, List.map_map]
        rfl
      congr 2
      simp only [List.map_append, List.map_cons, List.map_nil, eval, evals, evals_eq, e]
  · cases h

theorem zip_realms (r : Realm) (ps : List (String × Srt)) (args : List Tm) (h : args.length = ps.length) :
    (ps.zip args).map (fun a => ((realmOf a.1.2).getD r, a.2)) = zipRealms r (ps.map fun p => argRealm r p.2) args := by
  induction ps generalizing args with
  | nil => cases args with
    | nil => rfl
    | cons _ _ => simp at h
  | cons b ps ih =>
    cases args with
    | nil => simp at h
    | cons a args =>
      simp only [List.zip_cons_cons, List.map_cons, zipRealms, List.headD_cons, List.tail_cons, ih args (by simpa using h)]
      rfl

theorem zipRealms_length (r : Realm) (args : List Tm) : ∀ rs, (zipRealms r rs args).length = args.length := by
  induction args with
  | nil => intro rs; rfl
  | cons a args ih => intro rs; simp [zipRealms, ih]

theorem parseMac_good {E : Env} {p : Realm → Px → Tm → St → PRes} (hp : PGood E p) {r es m args st φ st' Γ L Dd}
    (hsc : Sc Γ Dd st.bvars) (hL : ∀ x, x ∈ L ↔ x ∈ Γ.map Prod.fst) (hc : Clean E r L Dd (.mac m args))
    (h : parseMac p E r es m args st = .ok (φ, st')) : Good E r Γ (.mac m args) φ st st' := by
  cases hc with
  | mac hm hlen hnd hca hcb hnb =>
  rename_i c
  simp only [parseMac, hm, if_pos hlen.symm] at h
  obtain ⟨⟨φs, s₁⟩, h₁, h⟩ := Out.bind_ok h
  obtain ⟨⟨χ, s₂⟩, h₂, h⟩ := Out.bind_ok h
  have hφ := (Prod.mk.inj (Out.ok.inj h)).1
  have hst' := (Prod.mk.inj (Out.ok.inj h)).2
  clear h
  subst hφ hst'
  rw [parseMacArgs_eq] at h₁
  have gl := seqP_good (E := E) (fun a : (String × Srt) × Tm => p ((realmOf a.1.2).getD r) (.stat a.1.2) a.2)
    (fun a => ((realmOf a.1.2).getD r, a.2)) (c.params.zip args) (fun a => hp _ _ _) st Γ L Dd φs s₁ hsc hL
    (by rw [zip_realms _ _ _ hlen]; exact hca) h₁
  rw [zip_realms _ _ _ hlen] at gl
  have hlenφ : φs.length = c.params.length := by rw [gl.len, zipRealms_length, hlen]
  rw [numbered_eq] at h₂
  have gb := hp r es c.body _ (extS (numFrom 0 c.params) []) _ _ χ s₂ (Sc.body c.params hnd) (names_body c.params) hcb h₂
  obtain ⟨i1, i2, i3⟩ := insert_good hlenφ (gb.nob hnb) gb
  dsimp only at *
  rw [← hlenφ]
  refine ⟨?_, gl.ids, gl.tbl.trans gb.tbl, ?_, ?_, ?_, ?_⟩
  · have := gl.bv
    rw [zipRealms_snd] at this
    exact this
  · intro v hv
    obtain ⟨a, ha, hv⟩ := i1 v hv
    exact gl.free a ha v hv
  · intro v hv
    obtain ⟨a, ha, hv⟩ := i2 v hv
    exact gl.bnd a ha v hv
  · intro hnt
    apply List.eq_nil_iff_forall_not_mem.2
    intro x hx
    obtain ⟨a, ha, hx⟩ := i2 x hx
    cases hnt with
    | mac hm' hna _ =>
      rw [hm] at hm'
      cases hm'
      rw [gl.nob hna a ha] at hx
      cases hx
  · intro D I hI hR ρ
    rw [i3 D I hI hR ρ]
    simp only [den, hm]
    rw [dens_zip, ← gl.sem D I hI (hR.mono gb.tbl.pre) ρ]
    exact (hI.mac m c hm r _ (by simp [hlenφ])).symm

/-! ## The whole elaborator -/

theorem parse_good (E : Env) (n : Nat) : PGood E (parse E n) := by
  induction n with
  | zero => intro r es t st Γ L Dd φ st' _ _ _ h; cases h
  | succ n hp =>
    intro r es t st Γ L Dd φ st' hsc hL hc h
    cases t with
    | letin b t₁ t₂ => exact parseLet_good hp hsc hL hc h
    | ite c a b => exact parseIte_good hp hsc hL hc h
    | find vs c a b => exact parseFind_good hp hsc hL hc h
    | quant k vs b => exact parseQuant_good hp hsc hL hc h
    | cvar x => exact parseCvar_good hp hsc hL hc h
    | app f args =>
      cases hc with
      | app hi ha hr hca => exact parseApplication_good hp hsc hL hi ha hr hca h
    | infx op ts => exact parseInfix_good hp hsc hL hc h
    | msg s args =>
      cases hc with
      | msg hf hf' hst hsig hnm hlen hre hnd hca hcb hnb =>
        refine parseStepMac_good hp (body := (·.message)) hsc hL hf hf' hst hsig hnm hlen hnd hca hcb hnb rfl ?_ ?_ h
        · intro hn
          cases hn with
          | msg _ hn _ => exact hn
        · intro D I hI e
          simp only [den, hst]
          rw [dens_uniform _ _ _ _ _ _ (by
            intro x hx
            obtain ⟨q, hq, rfl⟩ := List.mem_map.1 hx
            exact hre q.2 (List.mem_map_of_mem hq))]
          exact hI.msg _ _ _ hst hf' r _ (by simp [hlen])
    | cond s args =>
      cases hc with
      | cond hf hf' hst hsig hnm hlen hre hnd hca hcb hnb =>
        refine parseStepMac_good hp (body := (·.condition)) hsc hL hf hf' hst hsig hnm hlen hnd hca hcb hnb rfl ?_ ?_ h
        · intro hn
          cases hn with
          | cond _ hn _ => exact hn
        · intro D I hI e
          simp only [den, hst]
          rw [dens_uniform _ _ _ _ _ _ (by
            intro x hx
            obtain ⟨q, hq, rfl⟩ := List.mem_map.1 hx
            exact hre q.2 (List.mem_map_of_mem hq))]
          exact hI.cnd _ _ _ hst hf' r _ (by simp [hlen])
    | mac m args => exact parseMac_good hp hsc hL hc h

end Prs
end CV
