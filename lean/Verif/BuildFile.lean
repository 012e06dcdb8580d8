import Verif.BuildProps
set_option linter.unusedSimpArgs false
/-
C84: from the file to the query. What an execution of a file is, in terms of its texts, and that it is one of the problem.
-/
namespace CV
namespace Bld
open Dep Ev Cry Prs Fm
variable {D : Type}

/-! ## Specification -/

/-- SPECIFICATION. The logical symbols mean what they should. -/
structure FileLogic (N : Str PF D) : Prop where
  tru : N.fn .tru [] = N.ofProp True
  fls : N.fn .fls [] = N.ofProp False
  and : ∀ l, N.fn .and l = N.ofProp (∀ a ∈ l, N.truth a)
  or : ∀ l, N.fn .or l = N.ofProp (∃ a ∈ l, N.truth a)
  not : ∀ a, N.fn .not [a] = N.ofProp (¬ N.truth a)
  imp : ∀ a b, N.fn .imp [a, b] = N.ofProp (N.truth a → N.truth b)
  eq : ∀ a b, N.fn .eq [a, b] = N.ofProp (a = b)
  ite_true : ∀ c a b, N.truth c → N.fn .ite [c, a, b] = a
  ite_false : ∀ c a b, ¬ N.truth c → N.fn .ite [c, a, b] = b

/-- SPECIFICATION. The time points of an execution of the file: a sequence of different instances of the declared steps, `init`
being the first, and one point for what does not happen; `happens`, the orders and `pred` are those of the sequence. -/
structure FileRun (D0 : DEnv) (l : List Decl) (N : Str PF D) (points : List D) (undef first : D) : Prop where
  nodup : points.Nodup
  undef_not : undef ∉ points
  head : points[0]? = some first
  dom_step : ∀ d, N.dom .step d ↔ d ∈ points ∨ d = undef
  happens : ∀ d, N.fn (.sym "happens") [d] = N.ofProp (d ∈ points)
  leq : ∀ a b, N.fn (.sym "leq") [a, b] = N.ofProp (∃ i j : Nat, i ≤ j ∧ points[i]? = some a ∧ points[j]? = some b)
  lt : ∀ a b, N.fn (.sym "lt") [a, b] = N.ofProp (∃ i j : Nat, i < j ∧ points[i]? = some a ∧ points[j]? = some b)
  pred_succ : ∀ (i : Nat) (a b : D), points[i]? = some a → points[i + 1]? = some b → N.fn (.sym "pred") [b] = a
  pred_first : N.fn (.sym "pred") [first] = undef
  pred_undef : N.fn (.sym "pred") [undef] = undef
  init : N.fn (.sym "init") [] = first
  inst : ∀ p ∈ declaredSteps D0 l, ∀ as, List.Forall₂ N.dom (p.2.1.map Prod.snd) as →
    N.fn (.sym p.1) as ∈ points ∨ N.fn (.sym p.1) as = undef
  inj : ∀ p ∈ declaredSteps D0 l, ∀ p' ∈ declaredSteps D0 l, ∀ as bs, List.Forall₂ N.dom (p.2.1.map Prod.snd) as →
    List.Forall₂ N.dom (p'.2.1.map Prod.snd) bs → N.fn (.sym p.1) as ∈ points →
    N.fn (.sym p.1) as = N.fn (.sym p'.1) bs → p.1 = p'.1 ∧ as = bs
  surj : ∀ d ∈ points, ∃ p ∈ declaredSteps D0 l, ∃ as, List.Forall₂ N.dom (p.2.1.map Prod.snd) as ∧ N.fn (.sym p.1) as = d

/-- SPECIFICATION. What a declared order says of the points: for all (for some) values of its variables, if the guard is true:
for `a < b`, if `b` happens then `a` does, not after it; for `a > b` the converse; for `a <> b`, not both happen. -/
def OrderSays (E : DEnv) (I : Prs.Sem D) (points : List D) (o : OrderDecl) : Prop :=
  let atOrBefore (a b : D) := ∃ i j : Nat, i ≤ j ∧ points[i]? = some a ∧ points[j]? = some b
  let body (ds : List D) :=
    let e := ext I.junk (orderVars E o) ds []
    let v1 := den E.toEnv I .ev e o.t1
    let v2 := den E.toEnv I .ev e o.t2
    (∀ g, o.guard = some g → I.M.truth (den E.toEnv I .ev e g)) →
      match o.op with
      | .lt => v2 ∈ points → atOrBefore v1 v2
      | .gt => v1 ∈ points → atOrBefore v2 v1
      | .incompatible => ¬ (v1 ∈ points ∧ v2 ∈ points)
  match o.q with
  | .all => ∀ ds, List.Forall₂ I.M.dom ((orderVars E o).map Prod.snd) ds → body ds
  | .ex => ∃ ds, List.Forall₂ I.M.dom ((orderVars E o).map Prod.snd) ds ∧ body ds

/-- SPECIFICATION. An execution of the file. The structure `M` gives a meaning to the symbols of the file and to the new ones, `I`
says in addition what the texts mean. `gt` has the meaning that its axiom forces. Evaluation is a homomorphism, the
identity in the evaluated realm, and the skolem symbols of a `find` give what it finds. -/
structure FileExec (o : Opt) (D0 : DEnv) (l : List Decl) (P : LProblem) (M : Str BF D) (I : Prs.Sem D) (points : List D) (undef first : D) :
    Prop where
  sem : I.M = M.comap .f
  ok : I.Ok P.env.toEnv
  real : I.Real P.tbl
  logic : FileLogic I.M
  sorted : Sorted P I.M
  run : FileRun D0 l I.M points undef first
  orders : ∀ x ∈ ordersOf l, OrderSays P.env I points x
  gt : ∀ a b, I.M.dom .step a → I.M.dom .step b → I.M.fn (.sym "gt") [a, b] ≠ I.M.fn (.sym "lt") [b, a]
  homo : Homo (cfg o P) M
  skolem : SkolemOK (cfg o P) M
  ident : o.symbolic = false → ∀ d, (I.M.dom .message d → I.M.fn .evalMsg [d] = d) ∧ (I.M.dom .condition d → I.M.fn .evalCond [d] = d)

deriving instance DecidableEq for OrderOp

/-! ## Values of variables -/

theorem inDoms_iff {N : Str Sym D} : ∀ {vs : List Var} {ds : List D}, InDoms N vs ds ↔ List.Forall₂ N.dom (vs.map Var.sort) ds
  | [], [] => by simp [InDoms]
  | [], _ :: _ => by simp [InDoms]
  | _ :: _, [] => by simp [InDoms]
  | v :: vs, d :: ds => by simp [InDoms, inDoms_iff (vs := vs)]

theorem numFrom_ids : ∀ (l : List (String × Srt)) (n : Nat), ((numFrom n l).map Prod.snd).map Var.id = List.range' n l.length
  | [], n => rfl
  | b :: l, n => by simp [numFrom, numFrom_ids l, List.range'_succ]

theorem numFrom_nodup (l : List (String × Srt)) (n : Nat) : (((numFrom n l).map Prod.snd).map Var.id).Nodup := by
  rw [numFrom_ids]; exact List.nodup_range'

theorem pvals_sets (ps : List (String × Srt)) (ρ : Valn D) (as : List D) (h : ps.length = as.length) :
    pvals ps (ρ.sets ((numbered ps).map Prod.snd) as) = as := by
  rw [← pvals_eq, numbered_eq]
  have := Valn.sets_map ((numFrom 0 ps).map Prod.snd) ρ as (numFrom_nodup ps 0) (by simp [numFrom_length, h])
  rwa [List.map_map] at this

theorem numbered_sorts (ps : List (String × Srt)) : ((numbered ps).map Prod.snd).map Var.sort = ps.map Prod.snd := by
  rw [numbered_eq, numFrom_sorts]

/-! ## The steps -/

theorem forall₂_left {α β : Type} {R : α → β → Prop} : ∀ {l : List α} {m : List β}, List.Forall₂ R l m → ∀ a ∈ l, ∃ b ∈ m, R a b
  | _, _, .cons h t, a, ha => by
    rcases List.mem_cons.1 ha with rfl | ha
    · exact ⟨_, by simp, h⟩
    · obtain ⟨b, hb, hr⟩ := forall₂_left t a ha
      exact ⟨b, by simp [hb], hr⟩

theorem forall₂_right {α β : Type} {R : α → β → Prop} : ∀ {l : List α} {m : List β}, List.Forall₂ R l m → ∀ b ∈ m, ∃ a ∈ l, R a b
  | _, _, .cons h t, b, hb => by
    rcases List.mem_cons.1 hb with rfl | hb
    · exact ⟨_, by simp, h⟩
    · obtain ⟨a, ha, hr⟩ := forall₂_right t b hb
      exact ⟨a, by simp [ha], hr⟩

section
variable {o : Opt} {sh ig : Bool} {l : List Decl} {P : LProblem} {ord : List (String × Cache) → List (String × Cache)} {fuel : Nat}

/-- A well-sorted clean file and its problem. -/
structure Good (sh ig : Bool) (l : List Decl) (P : LProblem) : Prop where
  ws : FileWs (env0 sh) l
  clean : FileClean (env0 sh) l
  loaded : Loaded (env0 sh) l ig P
  srt : ProbSrt P.env.sg P

theorem good (hord : ∀ l, (ord l).Perm l) (hw : FileWs (env0 sh) l) (hc : FileClean (env0 sh) l) (h : load ord fuel ig (env0 sh) l = .ok P) :
    Good sh ig l P where
  ws := hw
  clean := hc
  loaded := load_loaded hord (env0_base sh) h
  srt := by
    have := C83_file_partial ord hord ig sh fuel l P hw hc h
    rwa [← (load_loaded hord (env0_base sh) h).env] at this

theorem Good.stepClean (G : Good sh ig l P) {p : String × List (String × Srt) × StepDecl} (hp : p ∈ declaredSteps (env0 sh) l) :
    StepClean P.env p.2.1 p.2.2 := by
  rw [G.loaded.env]
  simp only [declaredSteps, List.mem_append, List.mem_map] at hp
  rcases hp with ⟨d, hd, rfl⟩ | ⟨n, hn, rfl⟩
  · obtain ⟨x, hx, e⟩ := List.mem_filterMap.1 hd
    cases x <;> simp only [Option.some.injEq, reduceCtorEq] at e
    subst e
    exact G.clean.steps _ hx
  · exact init_clean _

theorem Good.steps (G : Good sh ig l P) : ∃ zs : List (LStep × List LAssign), P.steps.Perm (zs.map Prod.fst) ∧
    (∀ p ∈ declaredSteps (env0 sh) l, ∃ z ∈ zs, StepElab P.env P.tbl p z ∧ StepOk P.env P.tbl p.2.1 p.2.2 z.1 z.2) ∧
    (∀ z ∈ zs, ∃ p ∈ declaredSteps (env0 sh) l, StepElab P.env P.tbl p z ∧ StepOk P.env P.tbl p.2.1 p.2.2 z.1 z.2) ∧
    ∃ cs : List (String × List Srt), cs.Perm (declaredCells (env0 sh) l) ∧
      P.cells = cs.map fun c => ⟨c.1, c.2, (zs.flatMap (·.2)).filter fun a => a.cell == c.1⟩ := by
  obtain ⟨zs, h1, ⟨ds, h2, h3⟩, h4⟩ := G.loaded.steps
  refine ⟨zs, h1, fun p hp => ?_, fun z hz => ?_, h4⟩
  · obtain ⟨z, hz, hs⟩ := forall₂_left h3 p (h2.mem_iff.2 hp)
    exact ⟨z, hz, hs, hs.ok (G.stepClean hp)⟩
  · obtain ⟨p, hp, hs⟩ := forall₂_right h3 z hz
    exact ⟨p, h2.mem_iff.1 hp, hs, hs.ok (G.stepClean (h2.mem_iff.1 hp))⟩

theorem Good.step_name (G : Good sh ig l P) {p : String × List (String × Srt) × StepDecl} (hp : p ∈ declaredSteps (env0 sh) l) :
    p.1 ∈ P.env.functions.map Prod.fst := by
  rw [G.loaded.env]
  rw [← stepsOf_fileEnv (env0_base sh)] at hp
  obtain ⟨⟨n, c⟩, hx, e⟩ := List.mem_filterMap.1 hp
  cases c <;> simp only [Option.some.injEq, reduceCtorEq] at e
  subst e
  exact List.mem_map.2 ⟨_, hx, rfl⟩

theorem Good.step_nodup (G : Good sh ig l P) : (P.steps.map (·.name)).Nodup := by
  obtain ⟨zs, h1, ⟨ds, h2, h3⟩, -⟩ := G.loaded.steps
  have hmm : (zs.map Prod.fst).map (·.name) = zs.map (·.1.name) := by simp
  have : (P.steps.map (·.name)).Perm (zs.map (·.1.name)) := by rw [← hmm]; exact h1.map _
  rw [this.nodup_iff, names_elab h3]
  exact (h2.map _).nodup_iff.2 (declared_nodup G.loaded.ok)

/-- The step of a declaration. -/
theorem Good.to_step (G : Good sh ig l P) {p : String × List (String × Srt) × StepDecl} (hp : p ∈ declaredSteps (env0 sh) l) :
    ∃ s ∈ P.steps, s.name = p.1 ∧ s.vars = (numbered p.2.1).map Prod.snd := by
  obtain ⟨zs, h1, h2, -, -⟩ := G.steps
  obtain ⟨z, hz, he, -⟩ := h2 p hp
  exact ⟨z.1, h1.mem_iff.2 (List.mem_map.2 ⟨z, hz, rfl⟩), he.name, he.vars⟩

/-- The declaration of a step. -/
theorem Good.of_step (G : Good sh ig l P) {s : LStep} (hs : s ∈ P.steps) : ∃ p ∈ declaredSteps (env0 sh) l, s.name = p.1 ∧
    s.vars = (numbered p.2.1).map Prod.snd ∧ TextOk P.env.toEnv P.tbl p.1 p.2.1 [] p.2.2.message s.message ∧
    TextOk P.env.toEnv P.tbl p.1 p.2.1 [] p.2.2.condition s.condition := by
  obtain ⟨zs, h1, -, h2, -⟩ := G.steps
  obtain ⟨z, hz, rfl⟩ := List.mem_map.1 (h1.mem_iff.1 hs)
  obtain ⟨p, hp, he, hk⟩ := h2 z hz
  have hm := hk.message
  have hc := hk.condition
  rw [he.name] at hm hc
  exact ⟨p, hp, he.name, he.vars, hm, hc⟩

theorem Good.init_params (G : Good sh ig l P) {p : String × List (String × Srt) × StepDecl} (hp : p ∈ declaredSteps (env0 sh) l)
    (hn : p.1 = "init") : p.2.1 = [] := by
  simp only [declaredSteps, List.mem_append, List.mem_map] at hp
  rcases hp with ⟨d, hd, rfl⟩ | ⟨n, _, rfl⟩
  · have := G.loaded.ok.init d hd hn
    simp [this]
  · rfl

theorem sorts_of {p : String × List (String × Srt) × StepDecl} {s : Step} {N : Str Sym D} {as : List D}
    (h : s.vars = (numbered p.2.1).map Prod.snd) : InDoms N s.vars as ↔ List.Forall₂ N.dom (p.2.1.map Prod.snd) as := by
  rw [inDoms_iff, h, numbered_sorts]

/-- An execution of the file is a run of the protocol. -/
theorem Good.isRun (G : Good sh ig l P) {M : Str BF D} {points : List D} {undef first : D}
    (h : FileRun (env0 sh) l (M.comap .f) points undef first) : IsRun (M.comap (ofSym P)) (protocol P) points undef first where
  nodup := h.nodup
  undef_not := h.undef_not
  head := h.head
  dom_step := h.dom_step
  happens := h.happens
  leq := h.leq
  lt := h.lt
  pred_succ := h.pred_succ
  pred_first := h.pred_first
  pred_undef := h.pred_undef
  init := by
    intro i hi
    have hin := G.loaded.init
    simp only [protocol, Protocol.init, List.head?_map] at hi
    obtain ⟨s, hs, rfl⟩ := Option.map_eq_some_iff.1 hi
    rw [hs] at hin
    have hn : s.name = "init" := by simpa using hin
    obtain ⟨p, hp, h1, h2, -⟩ := G.of_step (List.mem_of_mem_head? hs)
    have hp0 := G.init_params hp (by rw [← h1]; exact hn)
    refine ⟨by simp only [pstep, h2, hp0]; rfl, ?_⟩
    show M.fn (ofSym P (.step (num P s.name))) [] = first
    rw [ofSym_step (h1 ▸ G.step_name hp), hn]
    exact h.init
  inst := by
    intro s hs0 as has
    obtain ⟨s, hs, rfl⟩ := List.mem_map.1 hs0
    obtain ⟨p, hp, h1, h2, -⟩ := G.of_step hs
    have := h.inst p hp as ((sorts_of (s := pstep P s) h2).1 has)
    show M.fn (ofSym P (.step (num P s.name))) as ∈ points ∨ M.fn (ofSym P (.step (num P s.name))) as = undef
    rw [ofSym_step (h1 ▸ G.step_name hp), h1]
    exact this
  inj := by
    intro s hs0 s' hs0' as bs has hbs
    obtain ⟨s, hs, rfl⟩ := List.mem_map.1 hs0
    obtain ⟨s', hs', rfl⟩ := List.mem_map.1 hs0'
    obtain ⟨p, hp, h1, h2, -⟩ := G.of_step hs
    obtain ⟨p', hp', h1', h2', -⟩ := G.of_step hs'
    have := h.inj p hp p' hp' as bs ((sorts_of (s := pstep P s) h2).1 has) ((sorts_of (s := pstep P s') h2').1 hbs)
    show M.fn (ofSym P (.step (num P s.name))) as ∈ points → M.fn (ofSym P (.step (num P s.name))) as = M.fn (ofSym P (.step (num P s'.name))) bs →
      num P s.name = num P s'.name ∧ as = bs
    rw [ofSym_step (h1 ▸ G.step_name hp), ofSym_step (h1' ▸ G.step_name hp'), h1, h1']
    intro a b
    obtain ⟨e1, e2⟩ := this a b
    exact ⟨by rw [e1], e2⟩
  surj := by
    intro d hd
    obtain ⟨p, hp, as, has, e⟩ := h.surj d hd
    obtain ⟨s, hs, h1, h2⟩ := G.to_step hp
    refine ⟨pstep P s, List.mem_map.2 ⟨s, hs, rfl⟩, as, (sorts_of (s := pstep P s) h2).2 has, ?_⟩
    show M.fn (ofSym P (.step (num P s.name))) as = d
    rw [ofSym_step (h1 ▸ G.step_name hp), h1]
    exact e

theorem fileLogic {M : Str BF D} (h : FileLogic (M.comap .f)) : Logic (M.comap (ofSym P)) := ⟨h.tru, h.fls, h.and, h.or, h.not, h.imp, h.eq⟩

theorem fileLogical (o : Opt) {M : Str BF D} (h : FileLogic (M.comap .f)) : Logical (cfg o P) M where
  sem :=
    { eq := fun a b => by
        have e : M.fn (.f .eq) [a, b] = M.ofProp (a = b) := h.eq a b
        show M.truth (M.fn (.f .eq) [a, b]) ↔ _
        rw [e, M.truth_ofProp]
      and := fun l => by
        have e : M.fn (.f .and) l = M.ofProp _ := h.and l
        show M.truth (M.fn (.f .and) l) ↔ _
        rw [e, M.truth_ofProp]; rfl
      or := fun l => by
        have e : M.fn (.f .or) l = M.ofProp _ := h.or l
        show M.truth (M.fn (.f .or) l) ↔ _
        rw [e, M.truth_ofProp]; rfl
      tru := by
        have e : M.fn (.f .tru) [] = M.ofProp True := h.tru
        show M.truth (M.fn (.f .tru) [])
        rw [e, M.truth_ofProp]; trivial }
  imp a b := by
    have e : M.fn (.f .imp) [a, b] = M.ofProp _ := h.imp a b
    show M.truth (M.fn (.f .imp) [a, b]) ↔ _
    rw [e, M.truth_ofProp]; rfl
  not a := by
    have e : M.fn (.f .not) [a] = M.ofProp _ := h.not a
    show M.truth (M.fn (.f .not) [a]) ↔ _
    rw [e, M.truth_ofProp]; rfl
  ite_true c a b hc := h.ite_true c a b hc
  ite_false c a b hc := h.ite_false c a b hc

/-! ## The orders -/

theorem Good.order (G : Good sh ig l P) {x : LOrder} (hx : x ∈ P.orders) : ∃ y ∈ ordersOf l, OrderOk P.env P.tbl y x ∧ OrderClean P.env y := by
  obtain ⟨y, hy, hk⟩ := forall₂_right G.loaded.orders x hx
  refine ⟨y, hy, hk, ?_⟩
  obtain ⟨d, hd, e⟩ := List.mem_filterMap.1 hy
  cases d <;> simp only [Option.some.injEq, reduceCtorEq] at e
  subst e
  rw [G.loaded.env]
  exact G.clean.orders _ hd

theorem Good.order_true (G : Good sh ig l P) {M : Str BF D} {I : Prs.Sem D} (hM : I.M = M.comap .f) (hI : I.Ok P.env.toEnv) (hR : I.Real P.tbl)
    (hL : FileLogic I.M) {points : List D} {undef first : D} (h : FileRun (env0 sh) l I.M points undef first) {x : LOrder} (hx : x ∈ P.orders)
    (hs : ∀ y ∈ ordersOf l, OrderSays P.env I points y) (ρ : Valn D) : holds (M.comap (ofSym P)) ρ (orderingAxiom (porder P x)) := by
  obtain ⟨y, hy, hk, hc⟩ := G.order hx
  have hsay := hs y hy
  have hT := G.srt.orders x hx
  have hlen : (orderVars P.env y).length = y.vars.length := by simp [orderVars]
  -- the order as the parser of orders would build it
  have he : porder P x = parseOrder x.q x.vars (y.guard.map fun _ => down P x.guard) y.op
      (if y.op = .gt then down P x.snd else down P x.fst) (if y.op = .gt then down P x.fst else down P x.snd) := by
    have hg : (y.guard.map fun _ => down P x.guard).getD SFm.tru = down P x.guard := by
      cases hg : y.guard with
      | some g => rfl
      | none => rw [hk.noguard hg]; rfl
    have hex := hk.excl
    unfold porder parseOrder
    rw [hg]
    cases hop : y.op with
    | incompatible => simp [hex.2 hop]
    | lt =>
      have : x.excl = false := by
        cases hb : x.excl with
        | false => rfl
        | true => have := hex.1 hb; rw [hop] at this; cases this
      simp [this]
    | gt =>
      have : x.excl = false := by
        cases hb : x.excl with
        | false => rfl
        | true => have := hex.1 hb; rw [hop] at this; cases this
      simp [this]
  have hrun := G.isRun (hM ▸ h)
  have hlog : Logic (M.comap (ofSym P)) := fileLogic (hM ▸ hL)
  -- the values of the texts
  have hval : ∀ ds, InDoms (M.comap (ofSym P)) x.vars ds → ∀ t φ s, OTextOk P.env P.tbl y t φ → HasSrt P.env.sg P.tbl (bindC noC x.vars) φ s →
      eval (M.comap (ofSym P)) (ρ.sets x.vars ds) (down P φ) = den P.env.toEnv I .ev (ext I.junk (orderVars P.env y) ds []) t := by
    intro ds hds t φ s ht hφ
    rw [eval_down M hφ, ← hM, ht.sem D I hI hR]
    have hl := hds.length
    have : pvals (orderVars P.env y) (ρ.sets x.vars ds) = ds := by
      rw [hk.vars]
      refine pvals_sets _ _ _ ?_
      rw [← hl, hk.vars]
      simp [numbered_eq, numFrom_length]
    rw [this]
  have hbody : ∀ ds, InDoms (M.comap (ofSym P)) x.vars ds →
      (OrderMeaning (M.comap (ofSym P)) points (y.guard.map fun _ => down P x.guard) y.op
        (if y.op = .gt then down P x.snd else down P x.fst) (if y.op = .gt then down P x.fst else down P x.snd) (ρ.sets x.vars ds) ↔
      ((∀ g, y.guard = some g → I.M.truth (den P.env.toEnv I .ev (ext I.junk (orderVars P.env y) ds []) g)) →
        match y.op with
        | .lt => den P.env.toEnv I .ev (ext I.junk (orderVars P.env y) ds []) y.t2 ∈ points →
            ∃ i j : Nat, i ≤ j ∧ points[i]? = some (den P.env.toEnv I .ev (ext I.junk (orderVars P.env y) ds []) y.t1) ∧
              points[j]? = some (den P.env.toEnv I .ev (ext I.junk (orderVars P.env y) ds []) y.t2)
        | .gt => den P.env.toEnv I .ev (ext I.junk (orderVars P.env y) ds []) y.t1 ∈ points →
            ∃ i j : Nat, i ≤ j ∧ points[i]? = some (den P.env.toEnv I .ev (ext I.junk (orderVars P.env y) ds []) y.t2) ∧
              points[j]? = some (den P.env.toEnv I .ev (ext I.junk (orderVars P.env y) ds []) y.t1)
        | .incompatible => ¬ (den P.env.toEnv I .ev (ext I.junk (orderVars P.env y) ds []) y.t1 ∈ points ∧
            den P.env.toEnv I .ev (ext I.junk (orderVars P.env y) ds []) y.t2 ∈ points))) := by
    intro ds hds
    have v1 := hval ds hds _ _ _ (hk.fst hc) hT.fst
    have v2 := hval ds hds _ _ _ (hk.snd hc) hT.snd
    have hgd : (∀ g, (y.guard.map fun _ => down P x.guard) = some g → holds (M.comap (ofSym P)) (ρ.sets x.vars ds) g) ↔
        ∀ g, y.guard = some g → I.M.truth (den P.env.toEnv I .ev (ext I.junk (orderVars P.env y) ds []) g) := by
      cases hg : y.guard with
      | none => simp
      | some g =>
        have := hval ds hds _ _ _ (hk.guard hc g hg) hT.guard
        simp only [Option.map_some, Option.some.injEq, forall_eq']
        unfold holds
        rw [this, hM]
        rfl
    unfold OrderMeaning
    simp only [hgd]
    refine imp_congr Iff.rfl ?_
    unfold firstOf at v1
    unfold secondOf at v2
    cases hop : y.op <;> simp only [hop] at v1 v2 <;> simp only [if_true, if_false, reduceCtorEq, v1, v2]
  rw [he]
  have hC := C10_ordering hlog hrun.toIsTrace x.vars (y.guard.map fun _ => down P x.guard) y.op
      (if y.op = .gt then down P x.snd else down P x.fst) (if y.op = .gt then down P x.fst else down P x.snd) ρ
  have hd : ∀ ds, InDoms (M.comap (ofSym P)) x.vars ds ↔ List.Forall₂ I.M.dom ((orderVars P.env y).map Prod.snd) ds := by
    intro ds
    rw [inDoms_iff, hk.vars, numbered_sorts, hM]
    rfl
  unfold OrderSays at hsay
  rw [hk.q]
  cases hq : y.q with
  | all =>
    rw [hq] at hsay
    exact hC.1.2 fun ds hds => (hbody ds hds).2 (hsay ds ((hd ds).1 hds))
  | ex =>
    rw [hq] at hsay
    obtain ⟨ds, hds, hb⟩ := hsay
    exact hC.2.2 ⟨ds, (hd ds).2 hds, (hbody ds ((hd ds).2 hds)).2 hb⟩

/-! ## The execution -/

theorem Good.execution (G : Good sh ig l P) (ht : TblPlain P.tbl) (hleg : o.legacy = false) {B : Gen.Prob BF} (hB : toProb o P = some B)
    {M : Str BF D} {I : Prs.Sem D} {points : List D} {undef first : D} (hx : FileExec o (env0 sh) l P M I points undef first) :
    Gen.Execution B M points undef first := by
  obtain ⟨g, -, rfl⟩ := Option.map_eq_some_iff.1 hB
  exact {
    logic := fileLogic (hx.sem ▸ hx.logic)
    run := G.isRun (hx.sem ▸ hx.run)
    wf := by
      intro s hs0
      obtain ⟨s, hs, rfl⟩ := List.mem_map.1 hs0
      obtain ⟨p, -, -, h2, -⟩ := G.of_step hs
      unfold Step.WF
      simp only [pstep, h2, numbered_eq]
      exact numFrom_nodup _ _
    nodup := by
      show ((P.steps.map (pstep P)).map Step.fid).Nodup
      have : (P.steps.map (pstep P)).map Step.fid = (P.steps.map (·.name)).map (num P) := by simp [pstep, Function.comp_def]
      rw [this]
      refine List.Nodup.map_on ?_ G.step_nodup
      intro n hn m hm e
      obtain ⟨s, hs, rfl⟩ := List.mem_map.1 hn
      obtain ⟨s', hs', rfl⟩ := List.mem_map.1 hm
      obtain ⟨p, hp, h1, -⟩ := G.of_step hs
      obtain ⟨p', hp', h1', -⟩ := G.of_step hs'
      exact num_inj (h1 ▸ G.step_name hp) (h1' ▸ G.step_name hp') e
    orders := by
      intro x hxm0 ρ
      obtain ⟨x, hxm, rfl⟩ := List.mem_map.1 hxm0
      exact G.order_true hx.sem hx.ok hx.real hx.logic hx.run hxm hx.orders ρ
    gt := by
      intro ρ
      have hlog : Logic (M.comap (ofSym P)) := fileLogic (hx.sem ▸ hx.logic)
      show holds (M.comap (ofSym P)) ρ gtAxiom
      rw [gtAxiom, holds_forall, quantVal_all]
      intro ds hds
      match ds, hds with
      | [a, b], hds =>
        rw [hlog.holds_not, hlog.holds_meq]
        have := hx.gt a b (by rw [hx.sem]; exact hds.1) (by rw [hx.sem]; exact hds.2.1)
        rw [hx.sem] at this
        exact this
    ok := cfg_ok o G.srt.tbl ht
    logical := fileLogical o (hx.sem ▸ hx.logic)
    homo := hx.homo
    skolem := hx.skolem
    ident := by
      intro hs s e he d hd
      have := hx.ident hs d
      rw [hx.sem] at this
      simp only [cfg, List.mem_cons, Prod.mk.injEq, List.not_mem_nil, or_false] at he
      rcases he with ⟨rfl, rfl⟩ | ⟨rfl, rfl⟩
      · exact this.1 hd
      · exact this.2 hd
    legacy := hleg }

end
end Bld
end CV
