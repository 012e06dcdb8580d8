import Verif.BuildFile
set_option linter.unusedSimpArgs false
/-
C84, continued: the macros and the cells, and what follows for the query of the file.
-/
namespace CV
namespace Bld
open Dep Ev Cry Prs Fm
variable {D : Type}

/-! ## Specification -/

/-- SPECIFICATION. The values of names in a step `n(ps)` with extra variables: the parameters have the values `as`, `in` is the
input at the step, the extra variables have the values `bs`. -/
def scope (I : Prs.Sem D) (n : String) (ps fresh : List (String × Srt)) (as bs : List D) : VEnv D :=
  ext I.junk (ps ++ [("in", .message)] ++ fresh) (as ++ [I.M.fn .input [I.M.fn (.sym n) as]] ++ bs) []

/-- SPECIFICATION. The condition of the point is true, and its `exec`. -/
def CondHolds (N : Str PF D) (d : D) : Prop := N.truth (N.fn .evalCond [N.fn (.sym "cond") [d]])
def ExecHolds (N : Str PF D) (d : D) : Prop := N.truth (N.fn .evalCond [N.fn (.sym "exec") [d]])

/-- SPECIFICATION. The macros mean what the texts of the steps say, see `Gen.UnfoldOK` for `exec`. -/
structure UnfoldSays (D0 : DEnv) (l : List Decl) (E : DEnv) (I : Prs.Sem D) (points : List D) (r d : Bool) : Prop where
  prop : ∀ x, ∃ p : Prop, I.M.fn .evalCond [I.M.fn (.sym "exec") [x]] = I.M.ofProp p
  macros : ∀ p ∈ declaredSteps D0 l, ∀ as, List.Forall₂ I.M.dom (p.2.1.map Prod.snd) as → I.M.fn (.sym p.1) as ∈ points →
    I.M.fn .evalCond [I.M.fn (.sym "cond") [I.M.fn (.sym p.1) as]] =
      I.M.fn .evalCond [den E.toEnv I .sym (scope I p.1 p.2.1 [] as []) p.2.2.condition] ∧
    I.M.fn .evalMsg [I.M.fn (.sym "msg") [I.M.fn (.sym p.1) as]] =
      I.M.fn .evalMsg [den E.toEnv I .sym (scope I p.1 p.2.1 [] as []) p.2.2.message]
  init : ∀ t, points[0]? = some t → ExecHolds I.M t
  exec : r = true → ∀ i t, points[i]? = some t →
    (ExecHolds I.M t ↔ ∀ j e, 1 ≤ j → j ≤ i → points[j]? = some e → CondHolds I.M e)
  direct : d = true ∨ r = false → ∀ t ∈ points, (ExecHolds I.M t ↔ CondHolds I.M t)

/-- SPECIFICATION. At the point `d` some assignment of the file writes `v` in the cell `c` at the indices `ks`. -/
def WritesText (D0 : DEnv) (l : List Decl) (E : DEnv) (I : Prs.Sem D) (c : String) (d : D) (ks : List D) (v : D) : Prop :=
  ∃ p ∈ declaredSteps D0 l, ∃ a ∈ p.2.2.assigns, a.cell = c ∧ ∃ as bs, List.Forall₂ I.M.dom (p.2.1.map Prod.snd) as ∧
    List.Forall₂ I.M.dom ((freshOf E a).map Prod.snd) bs ∧ I.M.fn (.sym p.1) as = d ∧
    a.args.map (den E.toEnv I .sym (scope I p.1 p.2.1 (freshOf E a) as bs)) = ks ∧
    den E.toEnv I .sym (scope I p.1 p.2.1 (freshOf E a) as bs) a.term = v

/-- SPECIFICATION. A cell contains what the texts assign to it, and otherwise what it contained before. -/
structure CellsSay (D0 : DEnv) (l : List Decl) (E : DEnv) (I : Prs.Sem D) : Prop where
  write : ∀ c ∈ declaredCells D0 l, ∀ ks d, List.Forall₂ I.M.dom c.2 ks → I.M.dom .step d → ∀ v, WritesText D0 l E I c.1 d ks v →
    I.M.fn (.sym c.1) (ks ++ [d]) = v
  keep : ∀ c ∈ declaredCells D0 l, ∀ ks d, List.Forall₂ I.M.dom c.2 ks → I.M.dom .step d → (∀ v, ¬ WritesText D0 l E I c.1 d ks v) →
    I.M.fn .evalMsg [I.M.fn (.sym c.1) (ks ++ [d])] = I.M.fn .evalMsg [I.M.fn (.sym c.1) (ks ++ [I.M.fn (.sym "pred") [d]])]

/-- SPECIFICATION. The parameters of the steps are used. See C12 for what is wrong otherwise. -/
def ParamsUsed (P : LProblem) : Prop := ∀ s ∈ P.steps, ∀ v ∈ s.vars, v.id ∈ (s.message.vars ++ s.condition.vars).map Var.id

/-- SPECIFICATION. What an assumption of the file says of an execution. Those on cells and macros are stated on the texts, the
cryptographic ones on the problem. -/
def Says (o : Opt) (D0 : DEnv) (l : List Decl) (P : LProblem) (B : Gen.Prob BF) (M : Str BF D) (I : Prs.Sem D) (points : List D) :
    Crypto × Nat → Prop
  | (.memoryCell, _) => ParamsUsed P ∧ CellsSay D0 l P.env I
  | (.unfolding r d, _) => UnfoldSays D0 l P.env I points r d
  | (c, k) => Gen.AssOK B M points (toAss o P k c)

/-! ## Steps -/

section
variable {o : Opt} {sh ig : Bool} {l : List Decl} {P : LProblem}

theorem text_den {M : Str BF D} {I : Prs.Sem D} (hM : I.M = M.comap .f) (hI : I.Ok P.env.toEnv) (hR : I.Real P.tbl) {n : String}
    {ps : List (String × Srt)} {t : Tm} {φ : Fm PF} (ht : TextOk P.env.toEnv P.tbl n ps [] t φ) {C : Prs.Ctx} {s : Srt}
    (hφ : HasSrt P.env.sg P.tbl C φ s) (ρ : Valn D) {as : List D} (hl : ps.length = as.length) :
    eval (M.comap (ofSym P)) (ρ.sets ((numbered ps).map Prod.snd) as) (down P φ) = den P.env.toEnv I .sym (scope I n ps [] as []) t := by
  rw [eval_down M hφ, ← hM, ht.sem D I hI hR, pvals_sets ps ρ as hl]
  rfl

theorem Good.unfold (G : Good sh ig l P) {M : Str BF D} {I : Prs.Sem D} (hM : I.M = M.comap .f) (hI : I.Ok P.env.toEnv) (hR : I.Real P.tbl)
    {B : Gen.Prob BF} (hB : toProb o P = some B) {points : List D} {r d : Bool} (h : UnfoldSays (env0 sh) l P.env I points r d) :
    Gen.UnfoldOK B (M.comap B.ι) points r d := by
  obtain ⟨g, -, rfl⟩ := Option.map_eq_some_iff.1 hB
  have hex : ∀ t, ExecHolds I.M t ↔ ExecTrue (M.comap (ofSym P)) t := by intro t; rw [hM]; rfl
  have hco : ∀ t, CondHolds I.M t ↔ CondTrue (M.comap (ofSym P)) t := by intro t; rw [hM]; rfl
  refine ⟨?_, ?_, ?_, ?_, ?_⟩
  · intro x
    have := h.prop x
    rw [hM] at this
    exact this
  · intro ρ s hs0 as has hp
    obtain ⟨s, hs, rfl⟩ := List.mem_map.1 hs0
    obtain ⟨p, hpd, h1, h2, h3, h4⟩ := G.of_step hs
    have has' := (sorts_of (s := pstep P s) h2).1 has
    have hl : p.2.1.length = as.length := by simpa using has'.length_eq
    have hfn : ofSym P (.step (num P s.name)) = .f (.sym p.1) := by rw [ofSym_step (h1 ▸ G.step_name hpd), h1]
    have hm := h.macros p hpd as (by rw [hM]; exact has') (by
      have hp : M.fn (ofSym P (.step (num P s.name))) as ∈ points := hp
      rw [hfn] at hp
      rw [hM]; exact hp)
    have S := G.srt.steps s hs
    rw [← text_den hM hI hR h3 S.message ρ hl, ← text_den hM hI hR h4 S.condition ρ hl] at hm
    show M.fn _ [M.fn _ [M.fn (ofSym P (.step (num P s.name))) as]] = M.fn _ [eval _ (ρ.sets s.vars as) _] ∧
      M.fn _ [M.fn _ [M.fn (ofSym P (.step (num P s.name))) as]] = M.fn _ [eval _ (ρ.sets s.vars as) _]
    rw [hfn, h2]
    rw [hM] at hm
    exact hm
  · exact fun t ht => (hex t).1 (h.init t ht)
  · intro hr i t ht
    rw [show ExecTrue (M.comap (ofSym P)) t ↔ ExecHolds I.M t from (hex t).symm] 
    rw [h.exec hr i t ht]
    exact forall_congr' fun j => forall_congr' fun e => by rw [hco]
  · intro hr t ht
    exact ((hex t).symm.trans (h.direct hr t ht)).trans (hco t)

/-! ## Cells -/

theorem vars_mapF {F G : Type} (g : F → G) (φ : Fm F) : (φ.mapF g).vars = φ.vars := by
  induction φ using Fm.ind with
  | hvar v => rfl
  | happ f args ih =>
    simp only [Fm.mapF, mapFs_eq, vars, varss_eq, List.flatMap_map]
    exact List.flatMap_congr ih
  | hquant q vs b ih => simp only [Fm.mapF, vars, ih]

theorem occ_mapF {F G : Type} (g : F → G) {v : Var} (φ : Fm F) : OccursFree v (φ.mapF g) → OccursFree v φ := by
  induction φ using Fm.ind with
  | hvar w => intro h; cases h; exact .var
  | happ f args ih =>
    intro h
    simp only [Fm.mapF, mapFs_eq] at h
    cases h with
    | app ha ho =>
      obtain ⟨a, ham, rfl⟩ := List.mem_map.1 ha
      exact .app ham (ih a ham ho)
  | hquant q vs b ih =>
    intro h
    simp only [Fm.mapF] at h
    cases h with
    | quant hn ho => exact .quant hn (ih ho)

theorem forall₂_split {α β : Type} {R : α → β → Prop} : ∀ (l : List α) {l' : List α} {m : List β}, List.Forall₂ R (l ++ l') m →
    ∃ a b, m = a ++ b ∧ List.Forall₂ R l a ∧ List.Forall₂ R l' b
  | [], _, m, h => ⟨[], m, rfl, .nil, h⟩
  | x :: l, l', _, .cons h t => by
    obtain ⟨a, b, rfl, h1, h2⟩ := forall₂_split l t
    exact ⟨_ :: a, b, rfl, .cons h h1, h2⟩

/-- The assignment `x` of the step `s` comes from `a` in the declared step `p`. -/
structure Link (sh : Bool) (l : List Decl) (P : LProblem) (c : LCell) (x : LAssign) (s : LStep) (p : String × List (String × Srt) × StepDecl)
    (a : AssignDecl) : Prop where
  step : s ∈ P.steps
  of : stepOf P x = some s
  name : s.name = p.1
  vars : s.vars = (numbered p.2.1).map Prod.snd
  decl : p ∈ declaredSteps (env0 sh) l
  mem : a ∈ p.2.2.assigns
  cell : a.cell = c.name
  ok : AssignOk P.env P.tbl p.1 p.2.1 a x
  len : x.args.length = a.args.length
  srt : AssignSrt P.env.sg P.tbl s.vars c.args x

theorem Good.stepWs (G : Good sh ig l P) {p : String × List (String × Srt) × StepDecl} (hp : p ∈ declaredSteps (env0 sh) l) :
    StepWs P.env p.2.1 p.2.2 := by
  rw [G.loaded.env]
  simp only [declaredSteps, List.mem_append, List.mem_map] at hp
  rcases hp with ⟨d, hd, rfl⟩ | ⟨n, hn, rfl⟩
  · obtain ⟨x, hx, e⟩ := List.mem_filterMap.1 hd
    cases x <;> simp only [Option.some.injEq, reduceCtorEq] at e
    subst e
    obtain ⟨ps, b, w⟩ := G.ws.steps _ hx
    obtain rfl := bound_sortD b
    exact w
  · exact init_ws G.loaded.ok

theorem Good.step_eq (G : Good sh ig l P) {s s' : LStep} (hs : s ∈ P.steps) (hs' : s' ∈ P.steps) (h : s.name = s'.name) : s = s' :=
  List.inj_on_of_nodup_map G.step_nodup hs hs' h

theorem Good.find (G : Good sh ig l P) {x : LAssign} {s : LStep} (hs : s ∈ P.steps) (h : x.step = s.name) : stepOf P x = some s := by
  cases hf : stepOf P x with
  | none =>
    have := List.find?_eq_none.1 hf s hs
    simp [h] at this
  | some s' =>
    have h1 := List.mem_of_find?_eq_some hf
    have h2 : (s'.name == x.step) = true := List.find?_some (p := fun s : LStep => s.name == x.step) hf
    rw [beq_iff_eq] at h2
    rw [G.step_eq h1 hs (h2.trans h)]

theorem Good.link (G : Good sh ig l P) {c : LCell} (hc : c ∈ P.cells) :
    (∀ x ∈ c.assigns, ∃ s p a, Link sh l P c x s p a) ∧
    (∀ p ∈ declaredSteps (env0 sh) l, ∀ a ∈ p.2.2.assigns, a.cell = c.name → ∃ x ∈ c.assigns, ∃ s, Link sh l P c x s p a) := by
  obtain ⟨zs, h1, h2, h3, cs, -, h5⟩ := G.steps
  have hmem : ∀ x, x ∈ c.assigns ↔ (∃ z ∈ zs, x ∈ z.2) ∧ x.cell = c.name := by
    rw [h5] at hc
    obtain ⟨c', -, rfl⟩ := List.mem_map.1 hc
    intro x
    simp [List.mem_filter, List.mem_flatMap]
  have mk : ∀ x ∈ c.assigns, ∀ z ∈ zs, ∀ p ∈ declaredSteps (env0 sh) l, StepElab P.env P.tbl p z → ∀ a ∈ p.2.2.assigns,
      AssignOk P.env P.tbl z.1.name p.2.1 a x → Link sh l P c x z.1 p a := by
    intro x hx z hz p hp he a ha hk
    rw [he.name] at hk
    have hzs : z.1 ∈ P.steps := h1.mem_iff.2 (List.mem_map.2 ⟨z, hz, rfl⟩)
    have hxs : x.step = z.1.name := by rw [he.name]; exact hk.step
    refine ⟨hzs, G.find hzs hxs, he.name, he.vars, hp, ha, hk.cell ▸ ((hmem x).1 hx).2, hk, ?_, ?_⟩
    · obtain ⟨Δ, ss, -, -, -, hl, hlen, -⟩ := ((G.stepWs hp).assigns a ha).ws
      obtain ⟨ss', hl', hlen'⟩ := hk.sorts
      rw [hl] at hl'
      cases hl'
      rw [hlen', hlen, Nat.min_self]
    · obtain ⟨s', hs', hn, hS⟩ := G.srt.cells c hc x hx
      rw [← G.step_eq hs' hzs (hn.trans hxs)]
      exact hS
  constructor
  · intro x hx
    obtain ⟨⟨z, hz, hxz⟩, -⟩ := (hmem x).1 hx
    obtain ⟨p, hp, he, hk⟩ := h3 z hz
    obtain ⟨a, ha, hax⟩ := forall₂_right hk.assigns x hxz
    exact ⟨z.1, p, a, mk x hx z hz p hp he a ha hax⟩
  · intro p hp a ha hac
    obtain ⟨z, hz, he, hk⟩ := h2 p hp
    obtain ⟨x, hxz, hax⟩ := forall₂_left hk.assigns a ha
    have hx : x ∈ c.assigns := (hmem x).2 ⟨⟨z, hz, hxz⟩, hax.cell.trans hac⟩
    exact ⟨x, hx, z.1, mk x hx z hz p hp he a ha hax⟩

theorem fresh_len {c : LCell} {x : LAssign} {s : LStep} {p : String × List (String × Srt) × StepDecl} {a : AssignDecl} (L : Link sh l P c x s p a) :
    (s.vars ++ x.fresh).length = p.2.1.length + (freshOf P.env a).length := by
  simp [L.vars, L.ok.fresh, numbered_eq, numFrom_length]

theorem link_ids {c : LCell} {x : LAssign} {s : LStep} {p : String × List (String × Srt) × StepDecl} {a : AssignDecl} (L : Link sh l P c x s p a) :
    (s.vars ++ x.fresh).map Var.id = List.range' 0 p.2.1.length ++ List.range' (p.2.1.length + 1) (freshOf P.env a).length := by
  rw [List.map_append, L.vars, L.ok.fresh, numbered_eq, numFrom_ids, numFrom_ids]

theorem link_nodup {c : LCell} {x : LAssign} {s : LStep} {p : String × List (String × Srt) × StepDecl} {a : AssignDecl} (L : Link sh l P c x s p a) :
    ((s.vars ++ x.fresh).map Var.id).Nodup := by
  rw [link_ids L, List.nodup_append]
  refine ⟨List.nodup_range', List.nodup_range', ?_⟩
  intro i hi j hj e
  simp only [List.mem_range'_1] at hi hj
  omega

/-- The values of the variables under an instance of the step. -/
theorem link_vals {c : LCell} {x : LAssign} {s : LStep} {p : String × List (String × Srt) × StepDecl} {a : AssignDecl} (L : Link sh l P c x s p a)
    (ρ : Valn D) {as bs : List D} (ha : p.2.1.length = as.length) (hb : (freshOf P.env a).length = bs.length) :
    pvals p.2.1 (ρ.sets (s.vars ++ x.fresh) (as ++ bs)) = as ∧
    (List.range (freshOf P.env a).length).map (fun i => ρ.sets (s.vars ++ x.fresh) (as ++ bs) (p.2.1.length + 1 + i)) = bs := by
  have h := Valn.sets_map (s.vars ++ x.fresh) ρ (as ++ bs) (link_nodup L) (by rw [fresh_len L, List.length_append, ha, hb])
  have hm : (s.vars ++ x.fresh).map (fun v => ρ.sets (s.vars ++ x.fresh) (as ++ bs) v.id) =
      ((s.vars ++ x.fresh).map Var.id).map (ρ.sets (s.vars ++ x.fresh) (as ++ bs)) := by rw [List.map_map]; rfl
  rw [hm, link_ids L, List.map_append] at h
  have := List.append_inj h (by simp [ha])
  refine ⟨?_, ?_⟩
  · rw [pvals, List.range_eq_range']
    exact this.1
  · refine Eq.trans ?_ this.2
    rw [List.range'_eq_map_range, List.map_map]
    rfl

theorem link_den {M : Str BF D} {I : Prs.Sem D} (hM : I.M = M.comap .f) (hI : I.Ok P.env.toEnv) (hR : I.Real P.tbl)
    {c : LCell} {x : LAssign} {s : LStep} {p : String × List (String × Srt) × StepDecl} {a : AssignDecl} (L : Link sh l P c x s p a)
    (ρ : Valn D) {as bs : List D} (ha : p.2.1.length = as.length) (hb : (freshOf P.env a).length = bs.length) :
    (x.args.map (down P)).map (eval (M.comap (ofSym P)) (ρ.sets (s.vars ++ x.fresh) (as ++ bs))) =
      a.args.map (den P.env.toEnv I .sym (scope I p.1 p.2.1 (freshOf P.env a) as bs)) ∧
    eval (M.comap (ofSym P)) (ρ.sets (s.vars ++ x.fresh) (as ++ bs)) (down P x.content) =
      den P.env.toEnv I .sym (scope I p.1 p.2.1 (freshOf P.env a) as bs) a.term := by
  obtain ⟨v1, v2⟩ := link_vals L ρ ha hb
  have key : ∀ (t : Tm) (φ : Fm PF) (s' : Srt) (C : Prs.Ctx), TextOk P.env.toEnv P.tbl p.1 p.2.1 (freshOf P.env a) t φ →
      HasSrt P.env.sg P.tbl C φ s' → eval (M.comap (ofSym P)) (ρ.sets (s.vars ++ x.fresh) (as ++ bs)) (down P φ) =
        den P.env.toEnv I .sym (scope I p.1 p.2.1 (freshOf P.env a) as bs) t := by
    intro t φ s' C ht hφ
    rw [eval_down M hφ, ← hM, ht.sem D I hI hR, v1, v2]
    rfl
  refine ⟨?_, key _ _ _ _ L.ok.content L.srt.content⟩
  refine List.ext_getElem (by simp [L.len]) fun i h1 h2 => ?_
  simp only [List.length_map] at h1 h2
  simp only [List.getElem_map]
  have hz : (x.args[i], c.args[i]'(by rw [← L.srt.arity]; exact h1)) ∈ x.args.zip c.args := by
    rw [List.mem_iff_getElem]
    exact ⟨i, by simp only [List.length_zip, L.srt.arity, Nat.min_self]; rw [← L.srt.arity]; exact h1, by simp⟩
  exact key _ _ _ _ (L.ok.args i _ _ (List.getElem?_eq_getElem h2) (List.getElem?_eq_getElem h1)) (L.srt.args _ hz)

theorem pcell_mem {c : LCell} {y : Assign} : y ∈ (pcell P c).assigns ↔ ∃ x ∈ c.assigns, ∃ s, stepOf P x = some s ∧
    y = ⟨pstep P s, x.args.map (down P), down P x.content, x.fresh⟩ := by
  simp only [pcell, List.mem_filterMap, Option.map_eq_some_iff]
  exact ⟨fun ⟨x, hx, s, hs, e⟩ => ⟨x, hx, s, hs, e.symm⟩, fun ⟨x, hx, s, hs, e⟩ => ⟨x, hx, s, hs, e.symm⟩⟩

theorem step_formula (G : Good sh ig l P) {M : Str BF D} {c : LCell} {x : LAssign} {s : LStep} {p : String × List (String × Srt) × StepDecl}
    {a : AssignDecl} (L : Link sh l P c x s p a) (ρ : Valn D) {as bs : List D} (ha : p.2.1.length = as.length)
    (hb : (freshOf P.env a).length = bs.length) :
    eval (M.comap (ofSym P)) (ρ.sets (s.vars ++ x.fresh) (as ++ bs)) (pstep P s).formula = M.fn (.f (.sym p.1)) as := by
  obtain ⟨v1, -⟩ := link_vals L ρ ha hb
  rw [← pvals_eq] at v1
  have : (s.vars.map fun v => ρ.sets (s.vars ++ x.fresh) (as ++ bs) v.id) = as := by
    refine Eq.trans ?_ v1
    generalize ρ.sets (s.vars ++ x.fresh) (as ++ bs) = σ
    rw [L.vars, List.map_map, numbered_eq]; rfl
  show eval (M.comap (ofSym P)) _ (.app (.step (num P s.name)) (s.vars.map .var)) = _
  rw [eval]
  show M.fn (ofSym P (.step (num P s.name))) _ = _
  rw [ofSym_step (L.name ▸ G.step_name L.decl), L.name, evals_eq, List.map_map]
  congr 1

theorem writes_iff (G : Good sh ig l P) {M : Str BF D} {I : Prs.Sem D} (hM : I.M = M.comap .f) (hI : I.Ok P.env.toEnv) (hR : I.Real P.tbl)
    {c : LCell} (hc : c ∈ P.cells) (ρ : Valn D) (d : D) (ks : List D) (v : D) :
    Writes (M.comap (ofSym P)) (pcell P c) ρ d ks v ↔ WritesText (env0 sh) l P.env I c.name d ks v := by
  obtain ⟨L1, L2⟩ := G.link hc
  have doms : ∀ {x s p a}, Link sh l P c x s p a → ∀ {ds : List D}, InDoms (M.comap (ofSym P)) (s.vars ++ x.fresh) ds ↔ ∃ as bs, ds = as ++ bs ∧
      List.Forall₂ I.M.dom (p.2.1.map Prod.snd) as ∧ List.Forall₂ I.M.dom ((freshOf P.env a).map Prod.snd) bs := by
    intro x s p a L ds
    rw [inDoms_iff, List.map_append, L.vars, L.ok.fresh, numbered_sorts, numFrom_sorts, hM]
    constructor
    · exact forall₂_split _
    · rintro ⟨as, bs, rfl, h1, h2⟩
      exact List.rel_append h1 h2
  constructor
  · rintro ⟨y, hy, ds, hds, e1, e2, e3⟩
    obtain ⟨x, hx, s, hs, rfl⟩ := pcell_mem.1 hy
    obtain ⟨s', p, a, L⟩ := L1 x hx
    have := L.of
    rw [hs] at this
    cases this
    obtain ⟨as, bs, rfl, ha, hb⟩ := (doms L).1 hds
    have la : p.2.1.length = as.length := by simpa using ha.length_eq
    have lb : (freshOf P.env a).length = bs.length := by simpa using hb.length_eq
    obtain ⟨d1, d2⟩ := link_den hM hI hR L ρ la lb
    refine ⟨p, L.decl, a, L.mem, L.cell, as, bs, ha, hb, ?_, ?_, ?_⟩
    · rw [← e1]
      rw [hM]
      exact (step_formula G L ρ la lb).symm
    · rw [← e2]; exact d1.symm
    · rw [← e3]; exact d2.symm
  · rintro ⟨p, hp, a, ha, hac, as, bs, h1, h2, e1, e2, e3⟩
    obtain ⟨x, hx, s, L⟩ := L2 p hp a ha hac
    have la : p.2.1.length = as.length := by simpa using h1.length_eq
    have lb : (freshOf P.env a).length = bs.length := by simpa using h2.length_eq
    obtain ⟨d1, d2⟩ := link_den hM hI hR L ρ la lb
    refine ⟨_, pcell_mem.2 ⟨x, hx, s, L.of, rfl⟩, as ++ bs, (doms L).2 ⟨as, bs, rfl, h1, h2⟩, ?_, ?_, ?_⟩
    · rw [← e1, hM]; exact step_formula G L ρ la lb
    · rw [← e2]; exact d1
    · rw [← e3]; exact d2

theorem cell_idx {N : Str Sym D} {c : Cell} {ks : List D} : CellIdx N c ks ↔ List.Forall₂ N.dom c.args ks := by
  have hs : ∀ n, (sortsToVariables n c.args).map Var.sort = c.args := by
    intro n
    apply List.ext_getElem?
    intro i
    simp only [sortsToVariables, List.getElem?_map, List.getElem?_zipIdx, List.getElem?_range']
    by_cases h : i < c.args.length <;> simp [h]
  rw [CellIdx, inDoms_iff, hs]

theorem Good.cell_decl (G : Good sh ig l P) {c : LCell} (hc : c ∈ P.cells) :
    (c.name, c.args) ∈ declaredCells (env0 sh) l ∧ c.name ∈ P.env.functions.map Prod.fst := by
  obtain ⟨zs, -, -, -, cs, h1, h2⟩ := G.steps
  rw [h2] at hc
  obtain ⟨c', hc', rfl⟩ := List.mem_map.1 hc
  have hm := h1.mem_iff.1 hc'
  refine ⟨hm, ?_⟩
  rw [← cellsOf_fileEnv (env0_base sh)] at hm
  rw [G.loaded.env]
  obtain ⟨⟨n, k⟩, hx, e⟩ := List.mem_filterMap.1 hm
  cases k <;> simp only [Option.some.injEq, reduceCtorEq] at e
  subst e
  exact List.mem_map.2 ⟨_, hx, rfl⟩

theorem ofSym_cell {n : String} (h : n ∈ P.env.functions.map Prod.fst) : ofSym P (.cell (num P n)) = .f (.sym n) := by
  show BF.f (.sym (nameAt P (num P n))) = _
  rw [(num_spec h).2]

theorem Good.cells (G : Good sh ig l P) {M : Str BF D} {I : Prs.Sem D} (hM : I.M = M.comap .f) (hI : I.Ok P.env.toEnv) (hR : I.Real P.tbl)
    {B : Gen.Prob BF} (hB : toProb o P = some B) (hu : ParamsUsed P) (h : CellsSay (env0 sh) l P.env I) :
    ∀ c ∈ B.P.cells, Gen.CellOK B (M.comap B.ι) c := by
  obtain ⟨g, -, rfl⟩ := Option.map_eq_some_iff.1 hB
  intro c hc0
  obtain ⟨c, hc, rfl⟩ := List.mem_map.1 hc0
  obtain ⟨hd, hn⟩ := G.cell_decl hc
  obtain ⟨L1, -⟩ := G.link hc
  have hfn := ofSym_cell hn
  have hdom : ∀ {ks : List D}, CellIdx (M.comap (ofSym P)) (pcell P c) ks → List.Forall₂ I.M.dom c.args ks := by
    intro ks hk
    rw [hM]
    exact cell_idx.1 hk
  refine ⟨⟨?_, ?_, ?_, ?_⟩, ?_, ?_⟩
  · refine C12_numbering (protocol P) (pcell P c) hc0 ?_ ?_
    · intro y hy
      obtain ⟨x, hx, s, hs, rfl⟩ := pcell_mem.1 hy
      exact List.mem_map.2 ⟨s, List.mem_of_find?_eq_some hs, rfl⟩
    · intro s hs0 v hv
      obtain ⟨s, hs, rfl⟩ := List.mem_map.1 hs0
      have := hu s hs v hv
      simp only [Step.usedVars, pstep, down, vars_mapF]
      exact this
  · intro y hy t ht v hv
    obtain ⟨x, hx, s, hs, rfl⟩ := pcell_mem.1 hy
    obtain ⟨s', p, a, L⟩ := L1 x hx
    have := L.of
    rw [hs] at this
    cases this
    obtain ⟨φ, hφ, rfl⟩ := List.mem_map.1 ht
    obtain ⟨i, hi, rfl⟩ := List.mem_iff_getElem.1 hφ
    have hi' : i < a.args.length := L.len ▸ hi
    have := (L.ok.args i _ _ (List.getElem?_eq_getElem hi') (List.getElem?_eq_getElem hi)).free v (occ_mapF _ _ (mem_free_occ hv))
    show v.id ∈ (s.vars ++ x.fresh).map Var.id
    rw [link_ids L]
    simp only [List.mem_append, List.mem_range'_1]
    omega
  · intro y hy v hv
    obtain ⟨x, hx, s, hs, rfl⟩ := pcell_mem.1 hy
    obtain ⟨s', p, a, L⟩ := L1 x hx
    have := L.of
    rw [hs] at this
    cases this
    have := L.ok.content.free v (occ_mapF _ _ (mem_free_occ hv))
    show v.id ∈ (s.vars ++ x.fresh).map Var.id
    rw [link_ids L]
    simp only [List.mem_append, List.mem_range'_1]
    omega
  · intro y hy
    obtain ⟨x, hx, s, hs, rfl⟩ := pcell_mem.1 hy
    obtain ⟨s', p, a, L⟩ := L1 x hx
    show (x.args.map (down P)).length = c.args.length
    rw [List.length_map, L.srt.arity]
  · intro ρ ks d hks hdm v hw
    have := h.write _ hd ks d (hdom hks) (by rw [hM]; exact hdm) v ((writes_iff G hM hI hR hc ρ d ks v).1 hw)
    show M.fn (ofSym P (.cell (num P c.name))) _ = v
    rw [hfn]
    rw [hM] at this
    exact this
  · intro ρ ks d hks hdm hw
    have := h.keep _ hd ks d (hdom hks) (by rw [hM]; exact hdm) fun v hv => hw v ((writes_iff G hM hI hR hc ρ d ks v).2 hv)
    show M.fn _ [M.fn (ofSym P (.cell (num P c.name))) _] = M.fn _ [M.fn (ofSym P (.cell (num P c.name))) _]
    rw [hfn]
    rw [hM] at this
    exact this

/-! ## The assumptions and the formulas of the user -/

theorem Good.says (G : Good sh ig l P) {M : Str BF D} {I : Prs.Sem D} (hM : I.M = M.comap .f) (hI : I.Ok P.env.toEnv) (hR : I.Real P.tbl)
    {B : Gen.Prob BF} (hB : toProb o P = some B) {points : List D} (h : ∀ c ∈ P.crypto.zipIdx, Says o (env0 sh) l P B M I points c) :
    ∀ a ∈ B.crypto, Gen.AssOK B M points a := by
  have hcr : B.crypto = P.crypto.zipIdx.map fun c => toAss o P c.2 c.1 := by
    obtain ⟨g, -, rfl⟩ := Option.map_eq_some_iff.1 hB
    rfl
  rw [hcr]
  intro a ha
  obtain ⟨⟨c, k⟩, hc, rfl⟩ := List.mem_map.1 ha
  have := h _ hc
  cases c with
  | memoryCell => exact G.cells hM hI hR hB this.1 this.2
  | unfolding r d => exact G.unfold hM hI hR hB this
  | nonce => exact this
  | ufCma _ _ _ => exact this
  | eufCma _ _ _ => exact this
  | intCtxt _ _ _ => exact this

theorem Good.assertion (G : Good sh ig l P) {φ : Fm PF} (h : φ ∈ P.assertions) : ∃ t ∈ assertionsOf l,
    ∀ (I : Prs.Sem D), I.Ok P.env.toEnv → I.Real P.tbl → ∀ ρ : Valn D, φ.eval I.M ρ = den P.env.toEnv I .ev [] t := by
  obtain ⟨t, ht, hk⟩ := forall₂_right G.loaded.assertions φ h
  refine ⟨t, ht, fun I hI hR ρ => (hk ?_).2 D I hI hR ρ⟩
  obtain ⟨x, hx, e⟩ := List.mem_filterMap.1 ht
  cases x <;> simp only [Option.some.injEq, reduceCtorEq] at e
  subst e
  rw [G.loaded.env]
  exact G.clean.texts _ (.inl hx)

theorem Good.query (G : Good sh ig l P) : ∃ q, queriesOf l = [q] ∧
    ∀ (I : Prs.Sem D), I.Ok P.env.toEnv → I.Real P.tbl → ∀ ρ : Valn D, P.query.eval I.M ρ = den P.env.toEnv I .ev [] q := by
  obtain ⟨q, hq, hk⟩ := G.loaded.query
  refine ⟨q, hq, fun I hI hR ρ => (hk ?_).2 D I hI hR ρ⟩
  have : q ∈ queriesOf l := by rw [hq]; simp
  obtain ⟨x, hx, e⟩ := List.mem_filterMap.1 this
  cases x <;> simp only [Option.some.injEq, reduceCtorEq] at e
  subst e
  rw [G.loaded.env]
  exact G.clean.texts _ (.inr (.inr hx))

/-- Evaluation can be pushed through the user's formulas. -/
def UserForms (P : LProblem) : Prop := ∀ φ ∈ P.query :: P.assertions, formOk P noC φ = true

theorem Good.user (G : Good sh ig l P) {M : Str BF D} {I : Prs.Sem D} (hM : I.M = M.comap .f) (hI : I.Ok P.env.toEnv) (hR : I.Real P.tbl)
    (hS : Sorted P I.M) {B : Gen.Prob BF} (hB : toProb o P = some B) (hf : UserForms P)
    (hv : ∀ t ∈ assertionsOf l, I.M.truth (den P.env.toEnv I .ev [] t)) : Gen.UserOK B M (sigB P) (fun _ => .step) := by
  obtain ⟨g, -, rfl⟩ := Option.map_eq_some_iff.1 hB
  refine ⟨typing o (hM ▸ hS), ?_, ?_⟩
  · intro φ hφ
    have : ∃ ψ ∈ P.query :: P.assertions, φ = up ψ := by
      rcases List.mem_cons.1 hφ with rfl | hφ
      · exact ⟨P.query, by simp, rfl⟩
      · obtain ⟨ψ, hψ, rfl⟩ := List.mem_map.1 hφ
        exact ⟨ψ, by simp [hψ], rfl⟩
    obtain ⟨ψ, hψ, rfl⟩ := this
    exact ⟨formOk_push o ψ (C := noC) (by intro i s h; cases h) (hf ψ hψ), size_pushFuel hψ⟩
  · intro φ hφ ρ _
    obtain ⟨ψ, hψ, rfl⟩ := List.mem_map.1 hφ
    obtain ⟨t, ht, he⟩ := G.assertion (D := D) hψ
    have := hv t ht
    rw [← he I hI hR ρ] at this
    rw [eval_up, ← hM]
    rw [hM] at this ⊢
    exact this

/-! ## The property -/

/-- **C84 (executions).** An execution of the file, as its texts say, is an execution of the problem made of it. -/
theorem C84_execution_partial (ord : List (String × Cache) → List (String × Cache)) (hord : ∀ l, (ord l).Perm l) (o : Opt) (ig sh : Bool)
    (fuel : Nat) (l : List Decl) (P : LProblem) (B : Gen.Prob BF) (hw : FileWs (env0 sh) l) (hc : FileClean (env0 sh) l)
    (h : load ord fuel ig (env0 sh) l = .ok P) (hB : toProb o P = some B) (ht : TblPlain P.tbl) (hleg : o.legacy = false)
    (M : Str BF D) (I : Prs.Sem D) (points : List D) (undef first : D) (hx : FileExec o (env0 sh) l P M I points undef first) :
    Gen.Execution B M points undef first := (good hord hw hc h).execution ht hleg hB hx

/-- **C84 (macros and cells).** If the macros and the cells mean what the texts say, they mean what the problem says. -/
theorem C84_assumptions_partial (ord : List (String × Cache) → List (String × Cache)) (hord : ∀ l, (ord l).Perm l) (o : Opt) (ig sh : Bool)
    (fuel : Nat) (l : List Decl) (P : LProblem) (B : Gen.Prob BF) (hw : FileWs (env0 sh) l) (hc : FileClean (env0 sh) l)
    (h : load ord fuel ig (env0 sh) l = .ok P) (hB : toProb o P = some B)
    (M : Str BF D) (I : Prs.Sem D) (points : List D) (hM : I.M = M.comap .f) (hI : I.Ok P.env.toEnv) (hR : I.Real P.tbl) :
    (∀ r d, UnfoldSays (env0 sh) l P.env I points r d → Gen.UnfoldOK B (M.comap B.ι) points r d) ∧
    (ParamsUsed P → CellsSay (env0 sh) l P.env I → ∀ c ∈ B.P.cells, Gen.CellOK B (M.comap B.ι) c) :=
  ⟨fun _ _ hu => (good hord hw hc h).unfold hM hI hR hB hu, fun hu hs => (good hord hw hc h).cells hM hI hR hB hu hs⟩

section
open Gen SmtM SmtS

/-- **C84.** From the file to the assertions: in an execution of a well-sorted file in which its assumptions hold and its assertions
are true, what is generated is true, and the formula of the query is the meaning of the text of the query. Missing: what is missing
in C71; the cryptographic assumptions are stated on the problem; the hypotheses on the forms of the texts (`FileClean`,
`TblPlain`, `UserForms`, `ParamsUsed`). -/
theorem C84_sound_partial (ord : List (String × Cache) → List (String × Cache)) (hord : ∀ l, (ord l).Perm l) (o : Opt) (ig sh : Bool)
    (fuel : Nat) (l : List Decl) (P : LProblem) (B : Gen.Prob BF) (hw : FileWs (env0 sh) l) (hc : FileClean (env0 sh) l)
    (h : load ord fuel ig (env0 sh) l = .ok P) (hB : toProb o P = some B) (ht : TblPlain P.tbl) (hf : UserForms P) (hleg : o.legacy = false)
    (M : Str BF D) (I : Prs.Sem D) (points : List D) (undef first : D) (hx : FileExec o (env0 sh) l P M I points undef first)
    (ha : ∀ c ∈ P.crypto.zipIdx, Says o (env0 sh) l P B M I points c)
    (hv : ∀ t ∈ assertionsOf l, I.M.truth (den P.env.toEnv I .ev [] t)) (g : GenFile BF) (hg : B.file = some g) :
    ∃ as q t, g.assertions = as ++ [.query q] ∧ queriesOf l = [t] ∧ ∀ ρ : Valn D, (∀ i, I.M.dom .step (ρ i)) →
      (∀ a ∈ as, AxTrue M ρ a) ∧ Fm.eval M ρ q = den P.env.toEnv I .ev [] t := by
  have G := good hord hw hc h
  obtain ⟨as, q, h1, h2, h3⟩ := Gen.C71_sound_partial hg (G.execution ht hleg hB hx) (G.says hx.sem hx.ok hx.real hB ha)
    (G.user hx.sem hx.ok hx.real hx.sorted hB hf hv)
  obtain ⟨t, ht, hq⟩ := G.query (D := D)
  have hBq : B.query = up P.query := by
    obtain ⟨g, -, rfl⟩ := Option.map_eq_some_iff.1 hB
    rfl
  refine ⟨as, q, t, h1, ht, fun ρ hρ => ?_⟩
  have hr : Resp M (fun _ => .step) ρ := by
    intro i
    have := hρ i
    rw [hx.sem] at this
    exact this
  refine ⟨fun a ham => h2 a ham ρ hr, ?_⟩
  rw [h3 ρ hr, hBq, eval_up, ← hx.sem]
  exact hq I hx.ok hx.real ρ

/-- **C84 (end to end).** If the text written for a well-sorted file has no model, the query of the file is true in every execution in
which the assumptions of the file hold, its assertions are true and that agrees with the declarations of the text. Missing: as
for `C84_sound_partial`, and as in `C71_proved_partial`. -/
theorem C84_proved_partial (ord : List (String × Cache) → List (String × Cache)) (hord : ∀ l, (ord l).Perm l) (o : Opt) (ig sh : Bool)
    (fuel : Nat) (l : List Decl) (P : LProblem) (B : Gen.Prob BF) (hw : FileWs (env0 sh) l) (hc : FileClean (env0 sh) l)
    (h : load ord fuel ig (env0 sh) l = .ok P) (hB : toProb o P = some B) (ht : TblPlain P.tbl) (hf : UserForms P) (hleg : o.legacy = false)
    (M : Str BF D) (I : Prs.Sem D) (points : List D) (undef first : D) (hx : FileExec o (env0 sh) l P M I points undef first)
    (ha : ∀ c ∈ P.crypto.zipIdx, Says o (env0 sh) l P B M I points c)
    (hv : ∀ t ∈ assertionsOf l, I.M.truth (den P.env.toEnv I .ev [] t)) (g : GenFile BF) (hg : B.file = some g)
    (S : SymInfo BF) (hS : Names S) (opts : Opts) (hok : FileOK S opts.evaluated g) (hstd : Std S M) (hno : Noop S opts.evaluated M)
    (hdecl : ∀ d ∈ g.declarations, declSem S M d) :
    ∃ text es t, output S opts g = some text ∧ SmtS.read text = some es ∧ queriesOf l = [t] ∧
      ((∀ (D : Type) (I : Interp D), ¬ ∀ e ∈ es, cmdSem I e) → I.M.truth (den P.env.toEnv I .ev [] t)) := by
  have G := good hord hw hc h
  obtain ⟨text, es, h1, h2, h3⟩ := Gen.C71_proved_partial hg (G.execution ht hleg hB hx) (G.says hx.sem hx.ok hx.real hB ha)
    (G.user hx.sem hx.ok hx.real hx.sorted hB hf hv) hS opts hok hstd hno hdecl
  obtain ⟨t, ht, hq⟩ := G.query (D := D)
  have hBq : B.query = up P.query := by
    obtain ⟨g, -, rfl⟩ := Option.map_eq_some_iff.1 hB
    rfl
  refine ⟨text, es, t, h1, h2, ht, fun hu => ?_⟩
  have hr : Resp M (fun _ => .step) (fun _ => first) := by
    intro i
    have := (hx.run.dom_step first).2 (.inl (List.mem_of_getElem? hx.run.head))
    rw [hx.sem] at this
    exact this
  have := h3 hu (fun _ => first) hr
  rw [hBq, eval_up] at this
  have e := hq I hx.ok hx.real fun _ => first
  rw [← e, hx.sem]
  exact this

end
end
end Bld
end CV
