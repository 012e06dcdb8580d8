/-
C88: the traces of a Squirrel protocol respect the orders of the problem made of it (the orders of
squirrel/converters/convert_order.rs, modelled in SqOrder.lean, in the problems of SqProblem.lean).
No definition of this file models code: those of the first section are specifications.
-/
import Verif.SqProblem

set_option linter.unusedSimpArgs false

namespace CV
namespace Sq

open Txt2 (Stm Asg Appl AKind)

/-! ### Specification: traces -/

section
variable {D : Type}

/-- SPECIFICATION. Where an instance of an action is in the control flow: at each control point, which of the parallel processes it is in and in which
copy of it, which of the branches of a choice it takes and with which values. -/
def flowAt : AT (List JVar) → List D → AT (List D)
  | [], _ => []
  | it :: r, ds =>
    ⟨(it.par.1, ds.take it.par.2.length), (it.sum.1, (ds.drop it.par.2.length).take it.sum.2.length)⟩ ::
      flowAt r (ds.drop (it.par.2.length + it.sum.2.length))

/-- SPECIFICATION. Two positions in different branches of the same choice: up to some point they are the same, and there they are in the same copy of
the same process, but take different branches, or the same branch with different values. -/
def Conflict (c c' : AT (List D)) : Prop :=
  ∃ p x y r r', c = p ++ x :: r ∧ c' = p ++ y :: r' ∧ x.par = y.par ∧ x.sum ≠ y.sum

/-- SPECIFICATION. One point strictly before another. -/
def Before (points : List D) (x y : D) : Prop := ∃ i j : Nat, i < j ∧ points[i]? = some x ∧ points[j]? = some y

/-- SPECIFICATION. The traces of a protocol, as lists of instances of its actions: what is before an instance in the control flow is before it in the
trace, and no two instances are in different branches of the same choice. -/
structure SqTrace (d : Dump) (S : SStr D) (points : List D) : Prop where
  flow : ∀ a ∈ d.actions, ∀ b ∈ d.actions, ∀ ds es, ds.length = a.indices.length → es.length = b.indices.length →
    flowAt a.action ds <+: flowAt b.action es → flowAt a.action ds ≠ flowAt b.action es →
    S.act b.name es ∈ points → Before points (S.act a.name ds) (S.act b.name es)
  excl : ∀ a ∈ d.actions, ∀ b ∈ d.actions, ∀ ds es, ds.length = a.indices.length → es.length = b.indices.length →
    Conflict (flowAt a.action ds) (flowAt b.action es) → ¬ (S.act a.name ds ∈ points ∧ S.act b.name es ∈ points)

/-- SPECIFICATION. Two positions in different branches of the same choice, whatever the values: up to some point they are the same, and there they are
in the same copy of the same process, but take branches of different numbers. -/
def Branches (c c' : AT (List D)) : Prop :=
  ∃ p x y r r', c = p ++ x :: r ∧ c' = p ++ y :: r' ∧ x.par = y.par ∧ x.sum.1 ≠ y.sum.1

/-- SPECIFICATION. What orders can say of a trace: nothing of `init`, and nothing of two instances of the same branch. -/
structure OrdTrace (d : Dump) (S : SStr D) (points : List D) : Prop where
  flow : ∀ a ∈ d.actions, ∀ b ∈ d.actions, a.name.toStr ≠ "init" → b.name.toStr ≠ "init" →
    ∀ ds es, ds.length = a.indices.length → es.length = b.indices.length →
    flowAt a.action ds <+: flowAt b.action es → flowAt a.action ds ≠ flowAt b.action es →
    S.act b.name es ∈ points → Before points (S.act a.name ds) (S.act b.name es)
  excl : ∀ a ∈ d.actions, ∀ b ∈ d.actions, a.name.toStr ≠ "init" → b.name.toStr ≠ "init" →
    ∀ ds es, ds.length = a.indices.length → es.length = b.indices.length →
    Branches (flowAt a.action ds) (flowAt b.action es) → ¬ (S.act a.name ds ∈ points ∧ S.act b.name es ∈ points)

/-- SPECIFICATION. What the orders of a problem say of a list of points: each of them is for all values of its variables, without condition. -/
def CvOrders (P : PStr D) (l : List Stm) (points : List D) : Prop :=
  ∀ q vs g t₁ op t₂ o, Stm.order q vs g t₁ op t₂ o ∈ l → q = .all ∧ g = none ∧
    ∀ e : String → Option D, (∀ b ∈ vs, (e b.1).isSome) →
      match op with
      | .lt => pev P e t₂ ∈ points → Before points (pev P e t₁) (pev P e t₂)
      | .gt => pev P e t₁ ∈ points → Before points (pev P e t₂) (pev P e t₁)
      | .incompatible => ¬ (pev P e t₁ ∈ points ∧ pev P e t₂ ∈ points)

/-- Every trace is such. -/
theorem SqTrace.weak {d : Dump} {S : SStr D} {points : List D} (h : SqTrace d S points) : OrdTrace d S points where
  flow a ha b hb _ _ := h.flow a ha b hb
  excl a ha b hb _ _ ds es h1 h2 h3 := h.excl a ha b hb ds es h1 h2 <| by
    obtain ⟨p, x, y, r, r', e1, e2, e3, e4⟩ := h3
    exact ⟨p, x, y, r, r', e1, e2, e3, fun e => e4 (by rw [e])⟩

/-! ### Positions -/

theorem conflict_nil (c : AT (List D)) : ¬ Conflict [] c := by
  rintro ⟨p, x, y, r, r', h, -⟩
  simp at h

theorem conflict_nil' (c : AT (List D)) : ¬ Conflict c [] := by
  rintro ⟨p, x, y, r, r', -, h, -⟩
  simp at h

theorem conflict_cons (x y : Item (List D)) (c c' : AT (List D)) :
    Conflict (x :: c) (y :: c') ↔ (x.par = y.par ∧ x.sum ≠ y.sum) ∨ (x = y ∧ Conflict c c') := by
  constructor
  · rintro ⟨p, u, v, r, r', h1, h2, h3, h4⟩
    cases p with
    | nil =>
      simp only [List.nil_append, List.cons.injEq] at h1 h2
      obtain ⟨rfl, -⟩ := h1
      obtain ⟨rfl, -⟩ := h2
      exact Or.inl ⟨h3, h4⟩
    | cons z p =>
      simp only [List.cons_append, List.cons.injEq] at h1 h2
      exact Or.inr ⟨h1.1.trans h2.1.symm, p, u, v, r, r', h1.2, h2.2, h3, h4⟩
  · rintro (⟨h3, h4⟩ | ⟨rfl, p, u, v, r, r', rfl, rfl, h3, h4⟩)
    · exact ⟨[], x, y, c, c', rfl, rfl, h3, h4⟩
    · exact ⟨x :: p, u, v, r, r', rfl, rfl, h3, h4⟩

theorem branches_nil (c : AT (List D)) : ¬ Branches [] c := by
  rintro ⟨p, x, y, r, r', h, -⟩
  simp at h

theorem branches_nil' (c : AT (List D)) : ¬ Branches c [] := by
  rintro ⟨p, x, y, r, r', -, h, -⟩
  simp at h

theorem branches_cons (x y : Item (List D)) (c c' : AT (List D)) :
    Branches (x :: c) (y :: c') ↔ (x.par = y.par ∧ x.sum.1 ≠ y.sum.1) ∨ (x = y ∧ Branches c c') := by
  constructor
  · rintro ⟨p, u, v, r, r', h1, h2, h3, h4⟩
    cases p with
    | nil =>
      simp only [List.nil_append, List.cons.injEq] at h1 h2
      obtain ⟨rfl, -⟩ := h1
      obtain ⟨rfl, -⟩ := h2
      exact Or.inl ⟨h3, h4⟩
    | cons z p =>
      simp only [List.cons_append, List.cons.injEq] at h1 h2
      exact Or.inr ⟨h1.1.trans h2.1.symm, p, u, v, r, r', h1.2, h2.2, h3, h4⟩
  · rintro (⟨h3, h4⟩ | ⟨rfl, p, u, v, r, r', rfl, rfl, h3, h4⟩)
    · exact ⟨[], x, y, c, c', rfl, rfl, h3, h4⟩
    · exact ⟨x :: p, u, v, r, r', rfl, rfl, h3, h4⟩

theorem flowAt_length (a : AT (List JVar)) (ds : List D) : (flowAt a ds).length = a.length := by
  induction a generalizing ds with
  | nil => rfl
  | cons x a ih => simp [flowAt, ih]

theorem flowAt_append (a b : AT (List JVar)) (ds : List D) :
    flowAt (a ++ b) ds = flowAt a ds ++ flowAt b (ds.drop (vars a).length) := by
  induction a generalizing ds with
  | nil => simp [flowAt, vars]
  | cons x a ih =>
    simp only [List.cons_append, flowAt, ih, List.drop_drop, vars, List.flatMap_cons, List.length_append]

theorem flowAt_take (a : AT (List JVar)) (ds : List D) (n : Nat) (h : (vars a).length ≤ n) : flowAt a (ds.take n) = flowAt a ds := by
  induction a generalizing ds n with
  | nil => rfl
  | cons x a ih =>
    simp only [vars, List.flatMap_cons, List.length_append] at h ih
    simp only [flowAt, List.take_take, List.drop_take]
    rw [ih _ _ (by omega), Nat.min_eq_left (by omega), Nat.min_eq_left (by omega)]

/-- Positions depend on the shape only. -/
theorem flowAt_shape {a b : AT (List JVar)} (h : shapeOf a = shapeOf b) (ds : List D) : flowAt a ds = flowAt b ds := by
  induction a generalizing b ds with
  | nil => cases b with
    | nil => rfl
    | cons y b => simp [shapeOf] at h
  | cons x a ih =>
    cases b with
    | nil => simp [shapeOf] at h
    | cons y b =>
      simp only [shapeOf, List.map_cons, List.cons.injEq, Item.mk.injEq, Prod.mk.injEq] at h
      obtain ⟨⟨⟨h1, h2⟩, h3, h4⟩, h5⟩ := h
      simp only [flowAt, h1, h2, h3, h4, ih (b := b) h5]

/-- What is before an action in the control flow of the file is before its instances. -/
theorem flow_prefix {a b : AT (List JVar)} (h : a <+: b) (hne : a ≠ b) (ds : List D) :
    flowAt a (ds.take (vars a).length) <+: flowAt b ds ∧ flowAt a (ds.take (vars a).length) ≠ flowAt b ds := by
  obtain ⟨c, rfl⟩ := h
  rw [flowAt_take _ _ _ (Nat.le_refl _), flowAt_append]
  refine ⟨⟨_, rfl⟩, fun e => ?_⟩
  have := congrArg List.length e
  simp only [List.length_append, flowAt_length] at this
  have : c = [] := List.length_eq_zero_iff.1 (by omega)
  simp [this] at hne

/-- Instances of actions in different branches that agree up to the choice. -/
theorem flow_conflict {a b : AT (List JVar)} {i : Nat} (h : mutexVars (shapeOf a) (shapeOf b) = some i) (ds es : List D)
    (hds : i ≤ ds.length) : Branches (flowAt a ds) (flowAt b (ds.take i ++ es)) := by
  obtain ⟨p, x, y, a', b', h1, h2, h3, h4, rfl⟩ := (C38_mutex_iff _ _ _).1 h
  simp only [shapeOf] at h1 h2
  obtain ⟨pa, ra, rfl, hpa, hra⟩ := List.map_eq_append_iff.1 h1
  obtain ⟨pb, rb, rfl, hpb, hrb⟩ := List.map_eq_append_iff.1 h2
  obtain ⟨xa, ra, rfl, hxa, -⟩ := List.map_eq_cons_iff.1 hra
  obtain ⟨xb, rb, rfl, hxb, -⟩ := List.map_eq_cons_iff.1 hrb
  have hs : shapeOf pa = shapeOf pb := by simp only [shapeOf]; rw [hpa, hpb]
  have hw : width p = (vars pa).length := by rw [← width_shape, shapeOf, hpa]
  have hw' : (vars pb).length = (vars pa).length := by rw [← width_shape, ← width_shape, hs]
  rw [hw] at hds ⊢
  subst hxa hxb
  simp only [Prod.mk.injEq] at h3 h4 hds ⊢
  rw [flowAt_append, flowAt_append, hw', ← flowAt_shape hs, flowAt, flowAt]
  have e1 : flowAt pa (ds.take ((vars pa).length + xa.par.2.length) ++ es) = flowAt pa ds := by
    rw [← flowAt_take pa _ (vars pa).length (Nat.le_refl _), List.take_append_of_le_length (by simp; omega), List.take_take,
      Nat.min_eq_left (by omega), flowAt_take _ _ _ (Nat.le_refl _)]
  refine ⟨flowAt pa ds, _, _, _, _, rfl, by rw [e1], ?_, ?_⟩
  · simp only [Prod.mk.injEq]
    refine ⟨h3.1, ?_⟩
    rw [← h3.2, List.drop_append_of_le_length (by simp; omega), List.take_append_of_le_length (by simp; omega), List.drop_take,
      List.take_take]
    congr 1
    omega
  · exact h4

/-- The shape of a position is that of the action. -/
theorem flowAt_lengths (a : AT (List JVar)) (ds : List D) (h : ds.length = (vars a).length) :
    (flowAt a ds).map (fun it => (⟨(it.par.1, it.par.2.length), (it.sum.1, it.sum.2.length)⟩ : Item Nat)) = shapeOf a := by
  induction a generalizing ds with
  | nil => rfl
  | cons x a ih =>
    simp only [vars, List.flatMap_cons, List.length_append] at h ih
    simp only [flowAt, shapeOf, List.map_cons, List.length_take, List.length_drop] at ih ⊢
    rw [ih _ (by simp only [List.length_drop]; omega), Nat.min_eq_left (by omega), Nat.min_eq_left (by omega)]

/-- The values in a position. -/
theorem flowAt_values (a : AT (List JVar)) (ds : List D) (h : ds.length = (vars a).length) :
    (flowAt a ds).flatMap (fun it => it.par.2 ++ it.sum.2) = ds := by
  induction a generalizing ds with
  | nil => simp [vars] at h; simp [flowAt, h]
  | cons x a ih =>
    simp only [vars, List.flatMap_cons, List.length_append] at h ih
    simp only [flowAt, List.flatMap_cons]
    rw [ih _ (by simp only [List.length_drop]; omega), ← List.take_add, List.take_append_drop]

theorem width_values (p : AT (List D)) :
    width (p.map fun it => (⟨(it.par.1, it.par.2.length), (it.sum.1, it.sum.2.length)⟩ : Item Nat)) =
      (p.flatMap fun it => it.par.2 ++ it.sum.2).length := by
  induction p with
  | nil => rfl
  | cons x p ih =>
    simp only [width, List.map_cons, List.sum_cons, List.flatMap_cons, List.length_append] at ih ⊢
    rw [ih]

/-- Instances in different branches agree on the variables before the choice. -/
theorem branches_values {a b : AT (List JVar)} {ds es : List D} (hds : ds.length = (vars a).length) (hes : es.length = (vars b).length)
    (h : Branches (flowAt a ds) (flowAt b es)) :
    ∃ i, mutexVars (shapeOf a) (shapeOf b) = some i ∧ ds.take i = es.take i := by
  obtain ⟨p, x, y, r, r', h1, h2, h3, h4⟩ := h
  refine ⟨(p.flatMap fun it => it.par.2 ++ it.sum.2).length + x.par.2.length, ?_, ?_⟩
  · rw [← flowAt_lengths a ds hds, ← flowAt_lengths b es hes, h1, h2, C38_mutex_iff]
    refine ⟨_, _, _, _, _, List.map_append, List.map_append, ?_, h4, ?_⟩
    · show (x.par.1, x.par.2.length) = (y.par.1, y.par.2.length)
      rw [h3]
    · rw [width_values]
  · rw [← flowAt_values a ds hds, ← flowAt_values b es hes, h1, h2]
    simp only [List.flatMap_append, List.flatMap_cons, h3, List.append_assoc]
    rw [List.take_length_add_append, List.take_length_add_append, List.take_left', List.take_left'] <;> rfl

/-- What is before an instance has its values. -/
theorem prefix_values {a b : AT (List JVar)} {ds es : List D} (hds : ds.length = (vars a).length) (hes : es.length = (vars b).length)
    (h : flowAt a ds <+: flowAt b es) : shapeOf a <+: shapeOf b ∧ ds = es.take ds.length := by
  constructor
  · rw [← flowAt_lengths a ds hds, ← flowAt_lengths b es hes]
    exact h.map _
  · obtain ⟨c, hc⟩ := h
    have := flowAt_values b es hes
    rw [← hc, List.flatMap_append, flowAt_values a ds hds] at this
    rw [← this, List.take_left']
    rfl

/-- Distinct variables can be given any values. -/
theorem exists_env (ns : List String) (hn : ns.Nodup) (ds : List D) (h : ds.length = ns.length) :
    ∃ e : String → Option D, (∀ n ∈ ns, (e n).isSome) ∧ ns.map e = ds.map some := by
  induction ns generalizing ds with
  | nil =>
    simp only [List.length_nil, List.length_eq_zero_iff] at h
    subst h
    exact ⟨fun _ => none, by simp, rfl⟩
  | cons n ns ih =>
    obtain ⟨hn1, hn2⟩ := List.nodup_cons.1 hn
    cases ds with
    | nil => simp at h
    | cons v ds =>
      obtain ⟨e, h1, h2⟩ := ih hn2 ds (by simpa using h)
      have hne : ∀ m ∈ ns, m ≠ n := fun m hm e => hn1 (e ▸ hm)
      refine ⟨fun m => if m = n then some v else e m, ?_, ?_⟩
      · intro m hm
        by_cases hmn : m = n
        · simp [hmn]
        · simpa [hmn] using h1 m ((List.mem_cons.1 hm).resolve_left hmn)
      · simp only [List.map_cons, if_true, List.cons.injEq, true_and, ← h2]
        exact List.map_congr_left fun m hm => by simp [hne m hm]

end

/-! ### The orders of a problem -/

section
variable {C : Ctx} {d : Dump} {D : Type} {S : SStr D} {P : PStr D} {U : Sym → Prop} {pr : Bool} {sys : String}

theorem bnds_some {vs : List JVar} {bs : List Bnd} (h : seqOpt (vs.map (bnd C)) = some bs) {e : String → Option D}
    (he : ∀ b ∈ bs, (e b.1).isSome) : ∀ v ∈ vs, (e (C.san .variable v.name)).isSome := by
  induction vs generalizing bs with
  | nil => simp
  | cons v vs ih =>
    simp only [List.map_cons] at h
    cases hv : bnd C v with
    | none => simp [hv, seqOpt] at h
    | some b =>
      cases hr : seqOpt (vs.map (bnd C)) with
      | none => simp [hv, seqOpt, hr] at h
      | some bs' =>
        simp only [hv, seqOpt, hr, Option.map_some, Option.some.injEq] at h
        subst h
        have hb : b.1 = C.san .variable v.name := by
          simp only [bnd, Option.map_eq_some_iff] at hv
          obtain ⟨s, -, rfl⟩ := hv
          rfl
        intro w hw
        rcases List.mem_cons.1 hw with rfl | hw
        · rw [← hb]; exact he b (by simp)
        · exact ih hr (fun b hb => he b (List.mem_cons_of_mem _ hb)) w hw

theorem stepTm_val {p : Path} {vs : List JVar} {e : String → Option D} (hp : P.fn (C.san .step p.toStr) = S.act p)
    (he : ∀ v ∈ vs, (e (C.san .variable v.name)).isSome) :
    pev P e (stepTm C p vs) = S.act p (vs.map fun v => (e (C.san .variable v.name)).getD P.junk) := by
  simp only [stepTm, pev, pevs_eq, List.map_map, hp]
  congr 1
  refine List.map_congr_left fun v hv => ?_
  obtain ⟨x, hx⟩ := Option.isSome_iff_exists.1 (he v hv)
  simp [pev, hx]

/-- What is said of two actions. -/
theorem pair_says {points : List D} {Ps : List String} (hT : OrdTrace d S points) {a b : JAct} (ha : a ∈ d.actions) (hb : b ∈ d.actions)
    (na : a.name.toStr ≠ "init") (nb : b.name.toStr ≠ "init") (wa : WfAct C d Ps a) (wb : WfAct C d Ps b)
    (hact : ∀ a ∈ d.actions, P.fn (C.san .step a.name.toStr) = S.act a.name) {o : Ord} (h : pairLemma C a.act b.act = .ok (some o))
    {e : String → Option D} (he : ∀ b ∈ o.args, (e b.1).isSome) :
    match o.kind with
    | .lt => pev P e o.t2 ∈ points → Before points (pev P e o.t1) (pev P e o.t2)
    | .gt => pev P e o.t1 ∈ points → Before points (pev P e o.t2) (pev P e o.t1)
    | .incompatible => ¬ (pev P e o.t1 ∈ points ∧ pev P e o.t2 ∈ points) := by
  have dep : ∀ {a b : JAct}, a ∈ d.actions → b ∈ d.actions → a.name.toStr ≠ "init" → b.name.toStr ≠ "init" → WfAct C d Ps a → WfAct C d Ps b → a.action <+: b.action → a.action ≠ b.action →
      ∀ bs, seqOpt (b.indices.map (bnd C)) = some bs → (∀ b ∈ bs, (e b.1).isSome) →
      pev P e (stepTm C b.name b.indices) ∈ points →
      Before points (pev P e (stepTm C a.name a.indices)) (pev P e (stepTm C b.name b.indices)) := by
    intro a b ha hb na nb wa wb hp hne bs hbs he
    have hs := bnds_some hbs he
    have hpre : a.indices <+: b.indices := by rw [wa.inv, wb.inv]; exact vars_prefix hp
    rw [stepTm_val (hact a ha) (fun v hv => hs v (hpre.subset hv)), stepTm_val (hact b hb) hs]
    obtain ⟨f1, f2⟩ := flow_prefix hp hne (b.indices.map fun v => (e (C.san .variable v.name)).getD P.junk)
    have ht : (b.indices.map fun v => (e (C.san .variable v.name)).getD P.junk).take (vars a.action).length =
        a.indices.map fun v => (e (C.san .variable v.name)).getD P.junk := by
      obtain ⟨c, hc⟩ := hpre
      rw [← hc, ← wa.inv, List.map_append, List.take_append_of_le_length (by simp), List.take_of_length_le (by simp)]
    rw [ht] at f1 f2
    exact hT.flow a ha b hb na nb _ _ (by simp) (by simp) f1 f2
  cases hd : depends a.action b.action with
  | some dir =>
    cases dir with
    | true =>
      obtain ⟨hp, hne⟩ := (C38_depends_iff a.action b.action).1.1 hd
      cases hbs : seqOpt (b.indices.map (bnd C)) with
      | none =>
        have hl : ¬ b.indices.length < a.indices.length := by
          have := (vars_prefix hp).length_le; rw [wa.inv, wb.inv]; omega
        simp only [pairLemma, dependsLemma, JAct.act, hd, if_true, if_neg hl, mkOrd_eq, hbs, Res.map, Res.bind] at h
        cases h
      | some bs =>
        have := ((C38_depends_lemma C (a := a.act) (b := b.act) wa.inv wb.inv ⟨hp, hne⟩).2 bs hbs).1
        rw [this] at h
        cases h
        exact dep ha hb na nb wa wb hp hne bs hbs he
    | false =>
      obtain ⟨hp, hne⟩ := (C38_depends_iff a.action b.action).2.1.1 hd
      cases hbs : seqOpt (a.indices.map (bnd C)) with
      | none =>
        have hl : ¬ a.indices.length < b.indices.length := by
          have := (vars_prefix hp).length_le; rw [wa.inv, wb.inv]; omega
        simp only [pairLemma, dependsLemma, JAct.act, hd, Bool.false_eq_true, if_false, if_neg hl, mkOrd_eq, hbs, Res.map, Res.bind] at h
        cases h
      | some bs =>
        have := ((C38_depends_lemma C (a := b.act) (b := a.act) wb.inv wa.inv ⟨hp, hne⟩).2 bs hbs).2
        rw [this] at h
        cases h
        exact dep hb ha nb na wb wa hp hne bs hbs he
  | none =>
    cases hm : mutexVars (shapeOf a.action) (shapeOf b.action) with
    | none =>
      rw [C38_no_lemma C (a := a.act) (b := b.act) hd hm] at h
      cases h
    | some i =>
      obtain ⟨w1, w2, hne⟩ := mutex_widths hm
      rw [← wa.inv] at w1
      rw [← wb.inv] at w2
      obtain ⟨l, hl1, hl2, hl3, hl4⟩ := renameAll_spec (b.indices.drop i) (a.indices.map (·.name))
        (fun v hv => wb.dummy v (List.mem_of_mem_drop hv))
      have hab : ¬ (a.act = b.act ∧ a.indices.length = i) := fun e => hne (congrArg Act.action e.1)
      have hlen : ¬ (a.indices.length < i ∨ b.indices.length < i) := by omega
      cases hbs : seqOpt ((a.indices ++ l).map (bnd C)) with
      | none =>
        simp only [JAct.act] at hab
        simp only [pairLemma, dependsLemma, JAct.act, hd, Res.bind, mutexLemma, hm, if_neg hab, if_neg hlen, hl1, mkOrd_eq, hbs, Res.map] at h
        cases h
      | some bs =>
        simp only [JAct.act] at hab
        simp only [pairLemma, dependsLemma, JAct.act, hd, Res.bind, mutexLemma, hm, if_neg hab, if_neg hlen, hl1, mkOrd_eq, hbs, Res.map] at h
        cases h
        have hs := bnds_some hbs he
        have hs1 : ∀ v ∈ a.indices, (e (C.san .variable v.name)).isSome := fun v hv => hs v (by simp [hv])
        have hs2 : ∀ v ∈ a.indices.take i ++ l, (e (C.san .variable v.name)).isSome := by
          intro v hv
          rcases List.mem_append.1 hv with hv | hv
          · exact hs1 v (List.mem_of_mem_take hv)
          · exact hs v (by simp [hv])
        show ¬ (pev P e (stepTm C a.name a.indices) ∈ points ∧ pev P e (stepTm C b.name (a.indices.take i ++ l)) ∈ points)
        rw [stepTm_val (hact a ha) hs1, stepTm_val (hact b hb) hs2]
        have hlb : l.length = b.indices.length - i := by
          have := congrArg List.length hl2
          simpa using this
        refine hT.excl a ha b hb na nb _ _ (by simp) (by simp; omega) ?_
        rw [List.map_append, List.map_take]
        exact flow_conflict hm _ _ (by simpa using w1)

/-- The orders of a problem are those of pairs of actions. -/
theorem orders_of {alnum : Char → Bool} (hu : alnum '_' = false) (hS : Faithful (d.ctx alnum) S U pr) (hA : Agree (d.ctx alnum) S U P)
    (hL : ∀ s d f, P.letin s d f = f d)
    (hd : OverDump (d.ctx alnum) d U pr) {Ps : List String} (hP : Ps.Pairwise (· < ·)) (hw : WfDump (d.ctx alnum) d Ps)
    {r : AoO (List Stm)} (hr : convDump alnum d = .ok r) {i : Nat} (hi : i < Ps.length) {l : List Stm} (hl : r.get i = some l) :
    (∀ q vs g t₁ op t₂ o, Stm.order q vs g t₁ op t₂ o ∈ l → ∃ a b o', [a, b].Sublist (d.actions.filter fun a => a.name.toStr ≠ "init") ∧
      pairLemma (d.ctx alnum) a.act b.act = .ok (some o') ∧ OrdOf o' (.order q vs g t₁ op t₂ o)) ∧
    ∀ a b, [a, b].Sublist (d.actions.filter fun a => a.name.toStr ≠ "init") → pairLemma (d.ctx alnum) a.act b.act = .ok none ∨
      ∃ o' s, pairLemma (d.ctx alnum) a.act b.act = .ok (some o') ∧ OrdOf o' s ∧ s ∈ l := by
  obtain ⟨l', types, cells, names, funs, macs, defs, axs, steps, ords, crypto, q, hl', hc⟩ := C80_contents hu hS hA hL hd hP hw hr i hi
  rw [hl] at hl'
  cases hl'
  generalize Ps[i] = sys at hc
  generalize d.ctx alnum = C at hS hd hw hA hc
  have hf : (d.actions.map JAct.act).filter (fun a => a.name.toStr ≠ "init") =
      (d.actions.filter fun a => a.name.toStr ≠ "init").map JAct.act := by
    rw [List.filter_map]
    rfl
  constructor
  · intro qq vs g t₁ op t₂ o hs
    have hs' : Stm.order qq vs g t₁ op t₂ o ∈ ords := by
      rw [hc.all] at hs
      simp only [List.mem_append, List.mem_singleton] at hs
      rcases hs with (((((((h | h) | h | h) | h | h) | h) | h) | h) | h) | h
      · obtain ⟨ts, -, e⟩ := hc.types
        rw [e] at h
        simp at h
      · obtain ⟨c, -, a, o, e, -⟩ := mem_fa2 hc.cells h
        cases e
      · obtain ⟨ns, -, hns⟩ := hc.names
        obtain ⟨c, -, a, e, -⟩ := mem_fa2 hns h
        cases e
      · obtain ⟨ns, -, hns⟩ := hc.funs
        obtain ⟨c, -, a, o, e, -⟩ := mem_fa2 hns h
        cases e
      · obtain ⟨c, -, a, o, e, -⟩ := mem_fa2 hc.macs h
        cases e
      · obtain ⟨c, -, a, o, e, -⟩ := mem_fa2 hc.defs h
        cases e
      · rw [hc.axs] at h
        obtain ⟨t, -, e⟩ := List.mem_map.1 h
        cases e
      · obtain ⟨c, -, a, o, m, n, e, -⟩ := mem_fa2 hc.steps h
        cases e
      · exact h
      · rcases (hc.crypto _).1 h with h | ⟨e, -, h⟩
        · obtain ⟨n, -, e⟩ := List.mem_map.1 h
          cases e
        · cases h
      · cases h
    obtain ⟨rr, hrr, o', rfl, ho⟩ := mem_fa2 hc.ords hs'
    obtain ⟨a, b, hab, hp⟩ := (C38_all_pairs C _ o').1 hrr
    rw [hf] at hab
    obtain ⟨m, hm, e⟩ := List.sublist_map_iff.1 hab
    obtain ⟨a', m, rfl, rfl, -⟩ := List.map_eq_cons_iff.1 e.symm
    rw [List.map_cons, List.cons.injEq] at e
    obtain ⟨b', m, rfl, rfl, e⟩ := List.map_eq_cons_iff.1 e.2.symm
    obtain rfl : m = [] := by
      have := congrArg List.length e.2
      simpa using this
    exact ⟨a', b', o', hm, hp, ho⟩
  · intro a b hab
    have hmem : ∀ r, (r = pairLemma C a.act b.act) → r ≠ .ok none → ∃ o s, r = .ok (some o) ∧ OrdOf o s ∧ s ∈ l := by
      intro r hr hn
      have hp : (a.act, b.act) ∈ pairs ((d.actions.map JAct.act).filter fun a => a.name.toStr ≠ "init") := by
        rw [mem_pairs, hf]
        exact hab.map JAct.act
      have key : ∀ x ∈ orderLemmas C (d.actions.map JAct.act), ∃ o s, x = .ok o ∧ OrdOf o s ∧ s ∈ l := by
        intro x hx'
        obtain ⟨s, hs, o, e, ho⟩ : ∃ s ∈ ords, ∃ o, x = .ok o ∧ OrdOf o s := by
          have := hc.ords
          generalize orderLemmas C (d.actions.map JAct.act) = L at hx' this
          clear hc
          induction this with
          | nil => simp at hx'
          | @cons r s L M h _ ih =>
            rcases List.mem_cons.1 hx' with rfl | hx'
            · exact ⟨s, by simp, h⟩
            · obtain ⟨s, hs, h⟩ := ih hx'
              exact ⟨s, List.mem_cons_of_mem _ hs, h⟩
        refine ⟨o, s, e, ho, ?_⟩
        rw [hc.all]
        simp [hs]
      rw [hr] at hn ⊢
      cases h : pairLemma C a.act b.act with
      | ok o =>
        cases o with
        | none => exact absurd h hn
        | some o =>
          obtain ⟨o', s, e, h1, h2⟩ := key (.ok o) (List.mem_filterMap.2 ⟨_, hp, by simp [h]⟩)
          cases e
          exact ⟨o, s, rfl, h1, h2⟩
      | err => obtain ⟨o', s, e, -⟩ := key .err (List.mem_filterMap.2 ⟨_, hp, by simp [h]⟩); cases e
      | panic => obtain ⟨o', s, e, -⟩ := key .panic (List.mem_filterMap.2 ⟨_, hp, by simp [h]⟩); cases e
    by_cases hn : pairLemma C a.act b.act = .ok none
    · exact Or.inl hn
    · exact Or.inr (hmem _ rfl hn)

/-- The orders say nothing of two instances of the same branch. -/
theorem orders_weak {alnum : Char → Bool} (hu : alnum '_' = false) (hS : Faithful (d.ctx alnum) S U pr) (hA : Agree (d.ctx alnum) S U P)
    (hL : ∀ s d f, P.letin s d f = f d)
    (hd : OverDump (d.ctx alnum) d U pr) {Ps : List String} (hP : Ps.Pairwise (· < ·)) (hw : WfDump (d.ctx alnum) d Ps)
    {r : AoO (List Stm)} (hr : convDump alnum d = .ok r) {i : Nat} (hi : i < Ps.length) {l : List Stm} (hl : r.get i = some l)
    {points : List D} (hT : OrdTrace d S points) : CvOrders P l points := by
  have hact : ∀ a ∈ d.actions, P.fn ((d.ctx alnum).san .step a.name.toStr) = S.act a.name := fun a ha => hA.sym _ (hd.acts a ha)
  intro qq vs g t₁ op t₂ o hs
  obtain ⟨a, b, o', hab, hp, ho⟩ := (orders_of hu hS hA hL hd hP hw hr hi hl).1 qq vs g t₁ op t₂ o hs
  have ha := List.mem_filter.1 (hab.subset (show a ∈ [a, b] by simp))
  have hb := List.mem_filter.1 (hab.subset (show b ∈ [a, b] by simp))
  have key := fun e he => pair_says hT ha.1 hb.1 (by simpa using ha.2) (by simpa using hb.2) (hw.actions a ha.1) (hw.actions b hb.1) hact hp (e := e) he
  cases ho
  · exact ⟨rfl, rfl, key⟩
  · exact ⟨rfl, rfl, key⟩
  · exact ⟨rfl, rfl, key⟩

/-- **C88.** In every trace of the protocol, the orders of the problem are true. -/
theorem C88_orders {alnum : Char → Bool} (hu : alnum '_' = false) (hS : Faithful (d.ctx alnum) S U pr) (hA : Agree (d.ctx alnum) S U P)
    (hL : ∀ s d f, P.letin s d f = f d)
    (hd : OverDump (d.ctx alnum) d U pr) {Ps : List String} (hP : Ps.Pairwise (· < ·)) (hw : WfDump (d.ctx alnum) d Ps)
    {r : AoO (List Stm)} (hr : convDump alnum d = .ok r) {i : Nat} (hi : i < Ps.length) {l : List Stm} (hl : r.get i = some l)
    {points : List D} (hT : SqTrace d S points) : CvOrders P l points :=
  orders_weak hu hS hA hL hd hP hw hr hi hl hT.weak

/-- **C80.** A model of the file with a trace of the protocol is a model of the problem in which its orders are true. -/
theorem C80_trace_sound_partial {alnum : Char → Bool} (hu : alnum '_' = false) (hS : Faithful (d.ctx alnum) S U pr)
    (hd : OverDump (d.ctx alnum) d U pr) (hn : NamesFine d U) {Ps : List String} (hP : Ps.Pairwise (· < ·)) (hw : WfDump (d.ctx alnum) d Ps)
    {r : AoO (List Stm)} (hr : convDump alnum d = .ok r) (i : Nat) (hi : i < Ps.length) {T : D → Prop}
    (hM : SqModel (d.ctx alnum) d S Ps[i] T) {points : List D} (hT : SqTrace d S points) :
    ∃ l P, r.get i = some l ∧ CvModel T P l ∧ CvOrders P l points ∧ (∀ a ∈ d.actions, P.fn ((d.ctx alnum).san .step a.name.toStr) = S.act a.name) ∧
      (∃ q o, Stm.assert .query q o ∈ l) ∧
      ∀ q o, Stm.assert .query q o ∈ l → ∀ ρ e, pev P e q = goal (d.ctx alnum) d S Ps[i] ρ := by
  obtain ⟨P, hA, hL⟩ := C79_interpretation (C := d.ctx alnum) hu hS
  obtain ⟨l, hl, h1, h2, h3⟩ := sound_at hu hS hA hL hd hn hP hw hr i hi hM
  exact ⟨l, P, hl, h1, C88_orders hu hS hA hL hd hP hw hr hi hl hT, fun a ha => hA.sym _ (hd.acts a ha), h2, h3⟩

/-- **C80.** If the query of the problem holds in every model of it whose orders are true, then the goal of the file holds in every model of the file
with a trace of the protocol. -/
theorem C80_trace_valid_partial {alnum : Char → Bool} (hu : alnum '_' = false) (hS : Faithful (d.ctx alnum) S U pr)
    (hd : OverDump (d.ctx alnum) d U pr) (hn : NamesFine d U) {Ps : List String} (hP : Ps.Pairwise (· < ·)) (hw : WfDump (d.ctx alnum) d Ps)
    {r : AoO (List Stm)} (hr : convDump alnum d = .ok r) (i : Nat) (hi : i < Ps.length) {T : D → Prop}
    (hv : ∀ l, r.get i = some l → ∀ (P : PStr D) (points : List D), CvModel T P l → CvOrders P l points →
      ∀ q o, Stm.assert .query q o ∈ l → ∀ e, T (pev P e q))
    (hM : SqModel (d.ctx alnum) d S Ps[i] T) {points : List D} (hT : SqTrace d S points) (ρ : String → D) :
    T (goal (d.ctx alnum) d S Ps[i] ρ) := by
  obtain ⟨l, P, hl, h1, h2, -, ⟨q, o, hq⟩, h3⟩ := C80_trace_sound_partial hu hS hd hn hP hw hr i hi hM hT
  have := hv l hl P points h1 h2 q o hq fun _ => none
  rwa [h3 q o hq ρ] at this

theorem two_of_mem {α : Type} {l : List α} {a b : α} (ha : a ∈ l) (hb : b ∈ l) (hne : a ≠ b) : [a, b].Sublist l ∨ [b, a].Sublist l := by
  induction l with
  | nil => simp at ha
  | cons x l ih =>
    rcases List.mem_cons.1 ha with rfl | ha'
    · left
      rcases List.mem_cons.1 hb with h | hb
      · exact absurd h.symm hne
      · exact (List.singleton_sublist.2 hb).cons_cons _
    · rcases List.mem_cons.1 hb with rfl | hb
      · right
        exact (List.singleton_sublist.2 ha').cons_cons _
      · rcases ih ha' hb with h | h
        · exact Or.inl (h.cons _)
        · exact Or.inr (h.cons _)

theorem bnds_names {vs : List JVar} {bs : List Bnd} (h : seqOpt (vs.map (bnd C)) = some bs) :
    bs.map (·.1) = vs.map fun v => C.san .variable v.name := by
  induction vs generalizing bs with
  | nil => simp [seqOpt] at h; simp [← h]
  | cons v vs ih =>
    simp only [List.map_cons] at h
    cases hv : bnd C v with
    | none => simp [hv, seqOpt] at h
    | some b =>
      cases hr : seqOpt (vs.map (bnd C)) with
      | none => simp [hv, seqOpt, hr] at h
      | some bs' =>
        simp only [hv, seqOpt, hr, Option.map_some, Option.some.injEq] at h
        subst h
        simp only [bnd, Option.map_eq_some_iff] at hv
        obtain ⟨s, -, rfl⟩ := hv
        simp [ih hr]

/-- Values for the variables of an order. -/
theorem order_env {vs : List JVar} {bs : List Bnd} (h : seqOpt (vs.map (bnd C)) = some bs) (hn : (bs.map (·.1)).Nodup) (ds : List D)
    (hl : ds.length = vs.length) (j : D) :
    ∃ e : String → Option D, (∀ b ∈ bs, (e b.1).isSome) ∧ (vs.map fun v => (e (C.san .variable v.name)).getD j) = ds := by
  have hb := bnds_names h
  obtain ⟨e, h1, h2⟩ := exists_env (bs.map (·.1)) hn ds (by rw [hb, hl, List.length_map])
  refine ⟨e, fun b hb => h1 _ (List.mem_map_of_mem hb), ?_⟩
  rw [hb, List.map_map] at h2
  have := congrArg (List.map fun o => Option.getD o j) h2
  simpa [List.map_map, Function.comp_def] using this

theorem nodup_bnds (hu : C.alnum '_' = false) {vs : List JVar} {bs : List Bnd} (h : seqOpt (vs.map (bnd C)) = some bs)
    (hn : (vs.map JVar.name).Nodup) (hf : ∀ v ∈ vs, v.name ∉ fixedSyms) : (bs.map (·.1)).Nodup := by
  rw [bnds_names h]
  have : (vs.map fun v => C.san .variable v.name) = (vs.map JVar.name).map (C.san .variable) := by simp
  rw [this]
  refine List.Nodup.map_on ?_ hn
  intro x hx y _ e
  obtain ⟨v, hv, rfl⟩ := List.mem_map.1 hx
  exact san_var_inj hu (hf v hv) e

theorem freshen_fine {names : List String} {fuel : Nat} {s s' : String} (h : freshen fuel names s = .ok s') (hs : s ∉ fixedSyms) : s' ∉ fixedSyms := by
  induction fuel generalizing s with
  | zero => cases h; exact hs
  | succ fuel ih =>
    simp only [freshen] at h
    split at h
    · split at h
      · cases h
      · refine ih h fun hm => ?_
        have key : ∀ x ∈ fixedSyms, x.toList.getLast? ≠ some 'u' := by decide +kernel
        refine key _ hm ?_
        rw [String.toList_append, List.getLast?_append]
        rfl
    · cases h; exact hs

theorem renameAll_fine {names : List String} {vs l : List JVar} (h : renameAll names vs = .ok l) (hs : ∀ v ∈ vs, v.name ∉ fixedSyms) :
    ∀ v ∈ l, v.name ∉ fixedSyms := by
  induction vs generalizing names l with
  | nil => cases h; simp
  | cons v vs ih =>
    simp only [renameAll, Res.bind] at h
    cases h1 : freshen (names.length + 1) names v.name with
    | err => simp [h1] at h
    | panic => simp [h1] at h
    | ok s =>
      cases h2 : renameAll (s :: names) vs with
      | err => simp [h1, h2] at h
      | panic => simp [h1, h2] at h
      | ok m =>
        simp only [h1, h2, Res.ok.injEq] at h
        subst h
        intro w hw
        rcases List.mem_cons.1 hw with rfl | hw
        · exact freshen_fine h1 (hs v (by simp))
        · exact ih h2 (fun w hw => hs w (List.mem_cons_of_mem _ hw)) w hw

/-- **C88.** The orders of the problem say no less, when actions name the variables of a common part of the control flow alike and the indices of an
action are distinct: any list of points of which they are true is a trace, as far as orders can say. -/
theorem C88_exact {alnum : Char → Bool} (hu : alnum '_' = false) (hS : Faithful (d.ctx alnum) S U pr) (hA : Agree (d.ctx alnum) S U P)
    (hL : ∀ s d f, P.letin s d f = f d)
    (hd : OverDump (d.ctx alnum) d U pr) {Ps : List String} (hP : Ps.Pairwise (· < ·)) (hw : WfDump (d.ctx alnum) d Ps)
    {r : AoO (List Stm)} (hr : convDump alnum d = .ok r) {i : Nat} (hi : i < Ps.length) {l : List Stm} (hl : r.get i = some l)
    (hnames : ∀ a ∈ d.actions, ∀ b ∈ d.actions, shapeOf a.action <+: shapeOf b.action → a.action <+: b.action)
    (hdist : ∀ a ∈ d.actions, (a.indices.map JVar.name).Nodup ∧ ∀ v ∈ a.indices, v.name ∉ fixedSyms)
    {points : List D} : CvOrders P l points ↔ OrdTrace d S points := by
  refine ⟨fun hO => ?_, orders_weak hu hS hA hL hd hP hw hr hi hl⟩
  have hact : ∀ a ∈ d.actions, P.fn ((d.ctx alnum).san .step a.name.toStr) = S.act a.name := fun a ha => hA.sym _ (hd.acts a ha)
  have hall := (orders_of hu hS hA hL hd hP hw hr hi hl).2
  have hinv : ∀ a ∈ d.actions, a.indices = vars a.action := fun a ha => (hw.actions a ha).inv
  have hsub : ∀ a ∈ d.actions, ∀ b ∈ d.actions, a.name.toStr ≠ "init" → b.name.toStr ≠ "init" → a.action ≠ b.action →
      [a, b].Sublist (d.actions.filter fun a => a.name.toStr ≠ "init") ∨ [b, a].Sublist (d.actions.filter fun a => a.name.toStr ≠ "init") := by
    intro a ha b hb na nb hne
    exact two_of_mem (List.mem_filter.2 ⟨ha, by simpa using na⟩) (List.mem_filter.2 ⟨hb, by simpa using nb⟩) (fun e => hne (by rw [e]))
  have hCu : (d.ctx alnum).alnum '_' = false := hu
  generalize d.ctx alnum = C at *
  constructor
  · intro a ha b hb na nb ds es hds hes hp hne
    obtain ⟨p1, p2⟩ := prefix_values (by rw [hds, hinv a ha]) (by rw [hes, hinv b hb]) hp
    have hpre := hnames a ha b hb p1
    have hne' : a.action ≠ b.action := by
      intro e
      have h2 : ds.length = es.length := by rw [hds, hes, hinv a ha, hinv b hb, e]
      rw [h2, List.take_length] at p2
      exact hne (by rw [e, p2])
    have hipre : a.indices <+: b.indices := by rw [hinv a ha, hinv b hb]; exact vars_prefix hpre
    have hlen : ¬ b.indices.length < a.indices.length := by have := hipre.length_le; omega
    -- the order of the two actions
    have ho : ∃ bs s, seqOpt (b.indices.map (bnd C)) = some bs ∧ s ∈ l ∧
        s = .order .all bs none (stepTm C a.name a.indices) .lt (stepTm C b.name b.indices) [] := by
      have d1 := (C38_depends_iff a.action b.action).1.2 ⟨hpre, hne'⟩
      have d2 := (C38_strict_order (A := List JVar)).2.1 a.action b.action |>.1 d1
      cases hbs : seqOpt (b.indices.map (bnd C)) with
      | none =>
        have e1 : pairLemma C a.act b.act = .err := by
          simp only [pairLemma, dependsLemma, JAct.act, d1, if_true, if_neg hlen, mkOrd_eq, hbs, Res.map, Res.bind]
        have e2 : pairLemma C b.act a.act = .err := by
          simp only [pairLemma, dependsLemma, JAct.act, d2, Bool.false_eq_true, if_false, if_neg hlen, mkOrd_eq, hbs, Res.map, Res.bind]
        rcases hsub a ha b hb na nb hne' with h | h
        · rcases hall a b h with h | ⟨o, s, h, -⟩ <;> rw [e1] at h <;> cases h
        · rcases hall b a h with h | ⟨o, s, h, -⟩ <;> rw [e2] at h <;> cases h
      | some bs =>
        obtain ⟨e1, e2⟩ := (C38_depends_lemma C (a := a.act) (b := b.act) (hinv a ha) (hinv b hb) ⟨hpre, hne'⟩).2 bs hbs
        rcases hsub a ha b hb na nb hne' with h | h
        · rcases hall a b h with h | ⟨o, s, h, ho, hs⟩ <;> rw [e1] at h <;> cases h
          cases ho
          exact ⟨bs, _, rfl, hs, rfl⟩
        · rcases hall b a h with h | ⟨o, s, h, ho, hs⟩ <;> rw [e2] at h <;> cases h
          cases ho
          exact ⟨bs, _, rfl, hs, rfl⟩
    obtain ⟨bs, s, hbs, hs, rfl⟩ := ho
    obtain ⟨e, he1, he2⟩ := order_env hbs (nodup_bnds hCu hbs (hdist b hb).1 (hdist b hb).2) es hes P.junk
    have := (hO _ _ _ _ _ _ _ hs).2.2 e he1
    have hsome := bnds_some hbs he1
    simp only [stepTm_val (hact a ha) (fun v hv => hsome v (hipre.subset hv)), stepTm_val (hact b hb) hsome, he2] at this
    have hav : (a.indices.map fun v => (e (C.san .variable v.name)).getD P.junk) = ds := by
      obtain ⟨c, hc⟩ := hipre
      rw [p2, ← he2, ← hc, hds, List.map_append, List.take_append_of_le_length (by simp), List.take_of_length_le (by simp)]
    rwa [hav] at this
  · -- the exclusion of two actions
    have key : ∀ a ∈ d.actions, ∀ b ∈ d.actions, [a, b].Sublist (d.actions.filter fun a => a.name.toStr ≠ "init") →
        ∀ ds es, ds.length = a.indices.length → es.length = b.indices.length →
        Branches (flowAt a.action ds) (flowAt b.action es) → ¬ (S.act a.name ds ∈ points ∧ S.act b.name es ∈ points) := by
      intro a ha b hb hab ds es hds hes hbr
      obtain ⟨n, hm, htake⟩ := branches_values (by rw [hds, hinv a ha]) (by rw [hes, hinv b hb]) hbr
      obtain ⟨w1, w2, hne⟩ := mutex_widths hm
      rw [← hinv a ha] at w1
      rw [← hinv b hb] at w2
      obtain ⟨m, hl1, hl2, hl3, hl4⟩ := renameAll_spec (b.indices.drop n) (a.indices.map (·.name))
        (fun v hv => (hw.actions b hb).dummy v (List.mem_of_mem_drop hv))
      have hdep : depends a.action b.action = none := by
        cases hd : depends a.action b.action with
        | none => rfl
        | some o => rw [C38_disjoint _ _ (by rw [hd]; simp)] at hm; simp at hm
      have hab' : ¬ (a.act = b.act ∧ a.indices.length = n) := fun e => hne (congrArg Act.action e.1)
      have hlen : ¬ (a.indices.length < n ∨ b.indices.length < n) := by omega
      have hp : pairLemma C a.act b.act = match seqOpt ((a.indices ++ m).map (bnd C)) with
          | some bs => .ok (some ⟨bs, stepTm C a.name a.indices, stepTm C b.name (a.indices.take n ++ m), .incompatible⟩)
          | none => .err := by
        simp only [JAct.act] at hab'
        simp only [pairLemma, dependsLemma, JAct.act, hdep, Res.bind, mutexLemma, hm, if_neg hab', if_neg hlen, hl1, mkOrd_eq, Res.map]
        cases seqOpt ((a.indices ++ m).map (bnd C)) <;> rfl
      cases hbs : seqOpt ((a.indices ++ m).map (bnd C)) with
      | none =>
        rw [hbs] at hp
        rcases hall a b hab with h | ⟨o, s, h, -⟩ <;> rw [hp] at h <;> cases h
      | some bs =>
        rw [hbs] at hp
        rcases hall a b hab with h | ⟨o, s, h, ho, hs⟩ <;> rw [hp] at h <;> cases h
        cases ho
        have hmb : m.length = b.indices.length - n := by
          have := congrArg List.length hl2
          simpa using this
        have hnod : ((a.indices ++ m).map JVar.name).Nodup := by
          rw [List.map_append, List.nodup_append]
          refine ⟨(hdist a ha).1, hl3, ?_⟩
          intro x hx y hy e
          obtain ⟨v, hv, rfl⟩ := List.mem_map.1 hy
          exact hl4 v hv (e ▸ hx)
        have hfix : ∀ v ∈ a.indices ++ m, v.name ∉ fixedSyms := by
          intro v hv
          rcases List.mem_append.1 hv with hv | hv
          · exact (hdist a ha).2 v hv
          · exact renameAll_fine hl1 (fun v hv => (hdist b hb).2 v (List.mem_of_mem_drop hv)) v hv
        obtain ⟨e, he1, he2⟩ := order_env hbs (nodup_bnds hCu hbs hnod hfix) (ds ++ es.drop n) (by simp; omega) P.junk
        have := (hO _ _ _ _ _ _ _ hs).2.2 e he1
        have hsome := bnds_some hbs he1
        rw [List.map_append] at he2
        obtain ⟨h1, h2⟩ := List.append_inj he2 (by simp [hds])
        simp only [stepTm_val (hact a ha) (fun v hv => hsome v (List.mem_append_left _ hv)), stepTm_val (hact b hb) (vs := a.indices.take n ++ m)
          (fun v hv => hsome v (by
            rcases List.mem_append.1 hv with hv | hv
            · exact List.mem_append_left _ (List.mem_of_mem_take hv)
            · exact List.mem_append_right _ hv)), List.map_append, List.map_take, h1, h2, htake, List.take_append_drop] at this
        exact this
    intro a ha b hb na nb ds es hds hes hbr
    have hne : a.action ≠ b.action := by
      obtain ⟨n, hm, -⟩ := branches_values (by rw [hds, hinv a ha]) (by rw [hes, hinv b hb]) hbr
      exact (mutex_widths hm).2.2
    rcases hsub a ha b hb na nb hne with h | h
    · exact key a ha b hb h ds es hds hes hbr
    · have hbr' : Branches (flowAt b.action es) (flowAt a.action ds) := by
        obtain ⟨p, x, y, r, r', e1, e2, e3, e4⟩ := hbr
        exact ⟨p, y, x, r', r, e2, e1, e3.symm, Ne.symm e4⟩
      exact fun hh => key b hb a ha h es ds hes hds hbr' ⟨hh.2, hh.1⟩

end

/-! ### A sample file: `a(i)`, then a choice between `b(i, j)` and `bb(i, j)` -/

/-- The sample; the first index of `b` and `bb` is called `k`. -/
def trDump (k : JVar) : Dump where
  query := .app (.fun_ (sy "true")) []
  hyps := []
  vars := []
  actions := [
    ⟨sy "init", [], [], [], .app (.fun_ (sy "true")) [], [], .app (.fun_ (sy "empty")) [], []⟩,
    ⟨sy "a", [⟨(0, [exI]), (0, [])⟩], [exI], [], .app (.fun_ (sy "true")) [], [], .app (.fun_ (sy "empty")) [], []⟩,
    ⟨sy "b", [⟨(0, [k]), (0, [])⟩, ⟨(0, []), (0, [exV "j"])⟩], [k, exV "j"], [], .app (.fun_ (sy "true")) [], [], .app (.fun_ (sy "empty")) [], []⟩,
    ⟨sy "bb", [⟨(0, [k]), (0, [])⟩, ⟨(0, []), (1, [exV "j"])⟩], [k, exV "j"], [], .app (.fun_ (sy "true")) [], [], .app (.fun_ (sy "empty")) [], []⟩ ]
  names := []
  ops := []
  macs := [(sy "input", .protocol), (sy "output", .protocol), (sy "cond", .protocol)]
  types := []

theorem trDump_act {k : JVar} {a : JAct} (ha : a ∈ (trDump k).actions) :
    a.cond = .app (.fun_ (sy "true")) [] ∧ a.output = .app (.fun_ (sy "empty")) [] ∧ a.updates = [] ∧ a.globals = [] ∧ a.condVars = [] := by
  simp only [trDump, List.mem_cons, List.not_mem_nil, or_false] at ha
  rcases ha with rfl | rfl | rfl | rfl <;> exact ⟨rfl, rfl, rfl, rfl, rfl⟩

theorem trDump_ctx (k : JVar) : (trDump k).ctx exAln = (trDump exI).ctx exAln := rfl

theorem trDump_wf {k : JVar} (hk : k.name ≠ "$dummy") : WfDump ((trDump k).ctx exAln) (trDump k) ["A"] where
  query := by simp [trDump, wf, wfL, headOk]
  hyps := by simp [trDump, wfL]
  actions := by
    intro a ha
    obtain ⟨h1, h2, h3, h4, h5⟩ := trDump_act ha
    refine { inv := ?_, dummy := ?_, condVars := h5, cond := by rw [h1]; simp [wf, wfL, headOk], output := by rw [h2]; simp [wf, wfL, headOk],
             updArgs := by simp [h3], updCells := by simp [h3], updBody := by simp [h3], inputs := fun m h => by simp [h4, firstMacro] at h }
    · simp only [trDump, List.mem_cons, List.not_mem_nil, or_false] at ha
      rcases ha with rfl | rfl | rfl | rfl <;> rfl
    · simp only [trDump, List.mem_cons, List.not_mem_nil, or_false] at ha
      rcases ha with rfl | rfl | rfl | rfl <;> simp [exI, exV, hk]
  ops := by simp [trDump]
  macs := by simp [trDump, WfMac]

theorem trDump_supp {k : JVar} (hk : k.sort = .index) : SuppDump ((trDump k).ctx exAln) (trDump k) := by
  have hi : ∀ (k : Kind) (s : String), s ∈ ["true", "empty"] → ((trDump exI).ctx exAln).san k (Path.toStr (sy s)) ≠ "if" := by
    intro k s hs
    simp only [List.mem_cons, List.not_mem_nil, or_false] at hs
    rcases hs with rfl | rfl <;> cases k <;> decide +kernel
  rw [trDump_ctx]
  refine { query := ?_, hyps := ?_, vars := ?_, actions := ?_, names := ?_, ops := ?_, macs := ?_ }
  · simp only [trDump, supp, suppL]
    exact ⟨trivial, fun h => absurd h (hi _ "true" (by simp))⟩
  · simp [trDump, suppL]
  · simp [trDump]
  · intro a ha
    obtain ⟨h1, h2, h3, h4, h5⟩ := trDump_act ha
    refine { indices := ?_, cond := by rw [h1]; simp only [supp, suppL]; exact ⟨trivial, fun h => absurd h (hi _ "true" (by simp))⟩,
             output := by rw [h2]; simp only [supp, suppL]; exact ⟨trivial, fun h => absurd h (hi _ "empty" (by simp))⟩,
             updVars := by simp [h3], updArgs := by simp [h3], updBody := by simp [h3], inputs := fun m h => by simp [h4, firstMacro] at h }
    simp only [trDump, List.mem_cons, List.not_mem_nil, or_false] at ha
    rcases ha with rfl | rfl | rfl | rfl <;> simp [exI, exV, okTy, dTy, hk]
  · simp [trDump]
  · simp [trDump]
  · simp [trDump, SuppMac]

/-- A model of the sample. -/
noncomputable def trMod : SStr Dv :=
  { exMod with
    mac := fun p ds t => match p.symb with
      | "output" => .app emptyP []
      | "cond" => .tt
      | _ => .app p (ds ++ [t]) }

/-- The symbols of the sample. -/
def trU : List Sym :=
  (["=", "true", "empty", "pair", "fst", "snd", "&&", "=>"].map fun s => Sym.op (sy s)) ++
  (["input", "output", "cond"].map fun s => Sym.mac (sy s)) ++ (["init", "a", "b", "bb"].map fun s => Sym.act (sy s))

theorem trMod_faithful (k : JVar) : Faithful ((trDump k).ctx exAln) trMod (· ∈ trU) false where
  valid := by decide +kernel
  apart := by
    have : ∀ a ∈ trU, ∀ b ∈ trU, Clash a b → a = b := by decide +kernel
    intro a b ha hb h
    rw [this a ha b hb h]
  quant := by
    intro k l l' h
    have : l.length = l'.length := h.length_eq
    funext f
    simp only [trMod, exMod]
    congr 1
    rw [this]
  find := fun _ _ _ => rfl
  tup := by
    intro l
    rw [trDump_ctx]
    have h1 : takesTuple (((trDump exI).ctx exAln).opArgs pairP) = false := by decide +kernel
    have h2 : takesTuple (((trDump exI).ctx exAln).opArgs emptyP) = false := by decide +kernel
    simp only [SStr.val, h1, h2]
    rfl
  proj := by simp

theorem trDump_over (k : JVar) : OverDump ((trDump k).ctx exAln) (trDump k) (· ∈ trU) false := by
  have tk : ∀ p ∈ ["true", "empty", "&&", "=>"], takesTuple (((trDump exI).ctx exAln).opArgs (sy p)) = false := by decide +kernel
  have c0 : ∀ Γ p, p ∈ ["true", "empty"] → Over ((trDump k).ctx exAln) (· ∈ trU) false Γ (.app (.fun_ (sy p)) []) := by
    intro Γ p hp
    refine .app _ _ _ ?_ (tk p (by simp at hp ⊢; tauto)) (by simp)
    simp only [List.mem_cons, List.not_mem_nil, or_false] at hp
    rcases hp with rfl | rfl <;> decide +kernel
  have hno : ∀ a ∈ (trDump k).actions, ∀ vs, ¬ HasInputs (trDump k) a vs := by
    intro a ha vs h
    obtain ⟨pre, g, post, _, _, _, _, h, _⟩ := h
    simp [(trDump_act ha).2.2.2.1] at h
  refine { flows := ?_, acts := ?_, input := ⟨by decide +kernel, ?_⟩, isMac := rfl, names := fun a ha vs h => absurd h (hno a ha vs),
           cond := fun a ha vs _ => by rw [(trDump_act ha).1]; exact c0 _ _ (by simp),
           output := fun a ha vs _ => by rw [(trDump_act ha).2.1]; exact c0 _ _ (by simp),
           updArgs := fun a ha u hu => by simp [(trDump_act ha).2.2.1] at hu,
           updBody := fun a ha u hu => by simp [(trDump_act ha).2.2.1] at hu,
           macs := by intro e h; simp [globals, trDump] at h, ops := by intro e h; simp [concretes, trDump] at h,
           logic := by rw [trDump_ctx]; decide +kernel, vars := by intro v hv; simp [trDump] at hv, hyps := by simp [trDump],
           query := c0 _ "true" (by simp) }
  · simp [trDump]
  · intro a ha
    simp only [trDump, List.mem_cons, List.not_mem_nil, or_false] at ha
    rcases ha with rfl | rfl | rfl | rfl <;> simp [trU]
  · intro vs h
    have : ((trDump k).ctx exAln).macs inputP = some .protocol := by rfl
    rw [this] at h; cases h

theorem trDump_names {k : JVar} (hk : k.name ∉ fixedSyms) : NamesFine (trDump k) (· ∈ trU) where
  indices := by
    intro a ha
    simp only [trDump, List.mem_cons, List.not_mem_nil, or_false] at ha
    have h1 : exI.name ∉ fixedSyms := by decide
    have h2 : (exV "j").name ∉ fixedSyms := by decide
    rcases ha with rfl | rfl | rfl | rfl <;>
      simp only [List.mem_cons, List.not_mem_nil, or_false, forall_eq_or_imp, forall_eq, hk, h1, h2, not_false_eq_true, and_self, false_imp_iff,
        implies_true]
  inputs := by
    intro a ha vs h
    obtain ⟨pre, g, post, _, _, _, _, h, _⟩ := h
    simp [(trDump_act ha).2.2.2.1] at h
  cells := fun a ha u hu => by simp [(trDump_act ha).2.2.1] at hu
  params := by intro e h; simp [globals, trDump] at h
  keys := by
    show ((trDump exI).macs.map (·.1)).Nodup
    decide +kernel
  protocol := by decide +kernel
  pairs := by decide +kernel
  abstract := by simp [concretes, trDump]

theorem trMod_model (k : JVar) : SqModel ((trDump k).ctx exAln) (trDump k) trMod "A" (· = .tt) where
  out := by
    intro a ha ρ _
    rw [(trDump_act ha).2.1]
    rfl
  cond := by
    intro a ha ρ _
    rw [(trDump_act ha).1]
    rfl
  upd := fun a ha u hu => by simp [(trDump_act ha).2.2.1] at hu
  mac := by
    intro p inputs indices ts body h ρ
    simp [trDump] at h
  pair := by
    rw [trDump_ctx]
    have h : ∀ p ∈ [pairP, fstP, sndP, eqP], takesTuple (((trDump exI).ctx exAln).opArgs p) = false := by decide +kernel
    constructor
    · simp only [fstAx, SStr.val, h pairP (by simp), h fstP (by simp), h eqP (by simp)]
      simp [trMod, exMod, pairP, fstP, eqP]
    · simp only [sndAx, SStr.val, h pairP (by simp), h sndP (by simp), h eqP (by simp)]
      simp [trMod, exMod, pairP, sndP, eqP]

/-- The values of the samples. -/
def v0 : Dv := .tt
def v1 : Dv := .ff

/-- The index of the sample, under another name. -/
def exK : JVar := ⟨"k", .index⟩

theorem len0 {α : Type} {l : List α} (h : l.length = 0) : l = [] := List.length_eq_zero_iff.1 h
theorem len1 {α : Type} {l : List α} (h : l.length = 1) : ∃ x, l = [x] := List.length_eq_one_iff.1 h
theorem len2 {α : Type} {l : List α} (h : l.length = 2) : ∃ x y, l = [x, y] := List.length_eq_two.1 h

/-- `init`, then `a(0)`, then `b(0, 1)` is a trace of the sample. -/
theorem trTrace : SqTrace (trDump exI) trMod [.act (sy "init") [], .act (sy "a") [v0], .act (sy "b") [v0, v1]] := by
  constructor
  · intro a ha b hb ds es hds hes hp hne hmem
    simp only [trDump, List.mem_cons, List.not_mem_nil, or_false] at ha hb
    have e0 : Before [Dv.act (sy "init") [], .act (sy "a") [v0], .act (sy "b") [v0, v1]] (.act (sy "init") []) (.act (sy "a") [v0]) := ⟨0, 1, by simp⟩
    have e1 : Before [Dv.act (sy "init") [], .act (sy "a") [v0], .act (sy "b") [v0, v1]] (.act (sy "init") []) (.act (sy "b") [v0, v1]) := ⟨0, 2, by simp⟩
    have e2 : Before [Dv.act (sy "init") [], .act (sy "a") [v0], .act (sy "b") [v0, v1]] (.act (sy "a") [v0]) (.act (sy "b") [v0, v1]) := ⟨1, 2, by simp⟩
    rcases ha with rfl | rfl | rfl | rfl <;> rcases hb with rfl | rfl | rfl | rfl <;>
      simp only [List.length_cons, List.length_nil, Nat.zero_add, Nat.reduceAdd] at hds hes <;>
      first
        | obtain rfl := len0 hds
        | obtain ⟨x, rfl⟩ := len1 hds
        | obtain ⟨x, y, rfl⟩ := len2 hds
    all_goals
      first
        | obtain rfl := len0 hes
        | obtain ⟨x', rfl⟩ := len1 hes
        | obtain ⟨x', y', rfl⟩ := len2 hes
    all_goals simp [trMod, exMod, sy, flowAt, exI, exV] at hp hne hmem e0 e1 e2 ⊢
    all_goals simp_all
  · intro a ha b hb ds es hds hes hc hmem
    simp only [trDump, List.mem_cons, List.not_mem_nil, or_false] at ha hb
    rcases ha with rfl | rfl | rfl | rfl <;> rcases hb with rfl | rfl | rfl | rfl <;>
      simp only [List.length_cons, List.length_nil, Nat.zero_add, Nat.reduceAdd] at hds hes <;>
      first
        | obtain rfl := len0 hds
        | obtain ⟨x, rfl⟩ := len1 hds
        | obtain ⟨x, y, rfl⟩ := len2 hds
    all_goals
      first
        | obtain rfl := len0 hes
        | obtain ⟨x', rfl⟩ := len1 hes
        | obtain ⟨x', y', rfl⟩ := len2 hes
    all_goals simp [trMod, exMod, sy, flowAt, exI, exV, conflict_nil, conflict_nil', conflict_cons] at hc hmem
    all_goals simp_all

/-- The actions of the sample. -/
def trA : JAct := ⟨sy "a", [⟨(0, [exI]), (0, [])⟩], [exI], [], .app (.fun_ (sy "true")) [], [], .app (.fun_ (sy "empty")) [], []⟩
def trB (k : JVar) : JAct :=
  ⟨sy "b", [⟨(0, [k]), (0, [])⟩, ⟨(0, []), (0, [exV "j"])⟩], [k, exV "j"], [], .app (.fun_ (sy "true")) [], [], .app (.fun_ (sy "empty")) [], []⟩
def trBB (k : JVar) : JAct :=
  ⟨sy "bb", [⟨(0, [k]), (0, [])⟩, ⟨(0, []), (1, [exV "j"])⟩], [k, exV "j"], [], .app (.fun_ (sy "true")) [], [], .app (.fun_ (sy "empty")) [], []⟩

theorem trDump_actions (k : JVar) : ((trDump k).actions.filter fun a => a.name.toStr ≠ "init") = [trA, trB k, trBB k] := by
  have h : (sy "init").toStr = "init" ∧ (sy "a").toStr ≠ "init" ∧ (sy "b").toStr ≠ "init" ∧ (sy "bb").toStr ≠ "init" := by decide +kernel
  simp only [trDump, List.filter_cons, h.1, h.2.1, h.2.2.1, h.2.2.2, ne_eq, not_true_eq_false, not_false_eq_true, decide_true, decide_false,
    Bool.false_eq_true, if_true, if_false, List.filter_nil]
  rfl

theorem trPair_lt : ∃ vs, pairLemma ((trDump exI).ctx exAln) trA.act (trB exI).act =
    .ok (some ⟨vs, .app "step_a" [.cvar "var_i"], .app "step_b" [.cvar "var_i", .cvar "var_j"], .lt⟩) := by
  have hp := ((C38_depends_lemma ((trDump exI).ctx exAln) (a := trA.act) (b := (trB exI).act)
      rfl rfl ⟨⟨[⟨(0, []), (0, [exV "j"])⟩], rfl⟩, by decide⟩).2 _ rfl).1
  have h : ((trDump exI).ctx exAln).san .step (sy "a").toStr = "step_a" ∧ ((trDump exI).ctx exAln).san .step (sy "b").toStr = "step_b" ∧
    ((trDump exI).ctx exAln).san .variable "i" = "var_i" ∧ ((trDump exI).ctx exAln).san .variable "j" = "var_j" := by decide +kernel
  have e1 : stepTm ((trDump exI).ctx exAln) trA.act.name trA.act.indices = .app "step_a" [.cvar "var_i"] := by
    simp only [stepTm, trA, JAct.act, h.1, show exI.name = "i" from rfl, List.map_cons, List.map_nil, h.2.2.1]
  have e2 : stepTm ((trDump exI).ctx exAln) (trB exI).act.name (trB exI).act.indices = .app "step_b" [.cvar "var_i", .cvar "var_j"] := by
    simp only [stepTm, trB, JAct.act, h.2.1, show exI.name = "i" from rfl, show (exV "j").name = "j" from rfl, List.map_cons, List.map_nil, h.2.2.1,
      h.2.2.2]
  rw [e1, e2] at hp
  exact ⟨_, hp⟩

theorem trPair_excl (k : JVar) (hk : k.name ∈ ["i", "k"]) (hk' : k.sort = .index) : ∃ vs t, pairLemma ((trDump k).ctx exAln) (trB k).act (trBB k).act =
    .ok (some ⟨vs, .app "step_b" [.cvar (((trDump k).ctx exAln).san .variable k.name), .cvar "var_j"],
      .app "step_bb" [.cvar (((trDump k).ctx exAln).san .variable k.name), t], .incompatible⟩) := by
  have hm : mutexVars (shapeOf (trB k).action) (shapeOf (trBB k).action) = some 1 := by simp [shapeOf, trB, trBB, mutexVars]
  obtain ⟨_, _, other, h1, _, _, h⟩ := C38_mutex_lemma ((trDump k).ctx exAln) (a := (trB k).act) (b := (trBB k).act) rfl rfl
    (by
      simp only [trBB, JAct.act, List.mem_cons, List.not_mem_nil, or_false] at hk ⊢
      rintro v (rfl | rfl)
      · rcases hk with h | h <;> rw [h] <;> decide
      · decide) (i := 1) hm
  obtain ⟨v, rfl⟩ : ∃ v, other = [v] := by
    have := congrArg List.length h1
    simp only [List.length_map] at this
    exact List.length_eq_one_iff.1 this
  have hv : v.sort = .index := by simpa [trBB, JAct.act, exV] using h1
  have := h [(((trDump k).ctx exAln).san .variable k.name, "index"), (((trDump k).ctx exAln).san .variable "j", "index"),
    (((trDump k).ctx exAln).san .variable v.name, "index")] (by
    simp only [trB, JAct.act, List.cons_append, List.nil_append, List.map_cons, List.map_nil, bnd, hv, hk', exV, dTy,
      Option.map_some, seqOpt])
  have h : ((trDump k).ctx exAln).san .step (sy "b").toStr = "step_b" ∧ ((trDump k).ctx exAln).san .step (sy "bb").toStr = "step_bb" ∧
    ((trDump k).ctx exAln).san .variable "j" = "var_j" := by rw [trDump_ctx]; decide +kernel
  have e1 : stepTm ((trDump k).ctx exAln) (trB k).act.name (trB k).act.indices =
      .app "step_b" [.cvar (((trDump k).ctx exAln).san .variable k.name), .cvar "var_j"] := by
    simp only [stepTm, trB, JAct.act, h.1, exV, List.map_cons, List.map_nil, h.2.2]
  have e2 : stepTm ((trDump k).ctx exAln) (trBB k).act.name ((trB k).act.indices.take 1 ++ [v]) =
      .app "step_bb" [.cvar (((trDump k).ctx exAln).san .variable k.name), .cvar (((trDump k).ctx exAln).san .variable v.name)] := by
    simp only [stepTm, trB, trBB, JAct.act, h.2.1, exV, List.map_cons, List.map_nil, List.take_succ_cons, List.take_zero,
      List.cons_append, List.nil_append]
  rw [e1, e2] at this
  exact ⟨_, _, this⟩

/-- The problem of the sample has an order `a < b` and an exclusion of `b` and `bb`, true of the trace. -/
example : ∃ r l P, convDump exAln (trDump exI) = .ok r ∧ r.get 0 = some l ∧ CvModel (· = Dv.tt) P l ∧
    CvOrders P l [.act (sy "init") [], .act (sy "a") [v0], .act (sy "b") [v0, v1]] ∧
    (∃ vs, Stm.order .all vs none (.app "step_a" [.cvar "var_i"]) .lt (.app "step_b" [.cvar "var_i", .cvar "var_j"]) [] ∈ l) ∧
    ∃ vs t₁ t₂, Stm.order .all vs none (.app "step_b" t₁) .incompatible (.app "step_bb" t₂) [] ∈ l := by
  obtain ⟨r, hr, -⟩ := C77_total exAln (Ps := ["A"]) (by simp) (by decide) (trDump_wf (k := exI) (by decide)) (trDump_supp rfl)
  obtain ⟨P, hA, hL⟩ := C79_interpretation (C := (trDump exI).ctx exAln) (by decide) (trMod_faithful exI)
  obtain ⟨l, hl, h1, -⟩ := sound_at (by decide) (trMod_faithful exI) hA hL (trDump_over exI) (trDump_names (by decide)) (Ps := ["A"]) (by decide)
    (trDump_wf (by decide)) hr 0 (by simp) (trMod_model exI)
  have h2 := C88_orders (by decide) (trMod_faithful exI) hA hL (trDump_over exI) (Ps := ["A"]) (by decide)
    (trDump_wf (by decide)) hr (by simp) hl trTrace
  have hall := (orders_of (by decide) (trMod_faithful exI) hA hL (trDump_over exI) (Ps := ["A"]) (by decide)
    (trDump_wf (by decide)) hr (i := 0) (by simp) hl).2
  rw [trDump_actions] at hall
  refine ⟨r, l, P, hr, hl, h1, h2, ?_, ?_⟩
  · obtain ⟨vs, hp⟩ := trPair_lt
    rcases hall trA (trB exI) ((List.Sublist.refl [trA, trB exI]).append (List.nil_sublist [trBB exI])) with h | ⟨o, s, h, ho, hs⟩ <;>
      rw [hp] at h <;> cases h
    cases ho
    exact ⟨vs, hs⟩
  · obtain ⟨vs, t, hp⟩ := trPair_excl exI (by simp [exI]) rfl
    rcases hall (trB exI) (trBB exI) ((List.Sublist.refl _).cons _) with h | ⟨o, s, h, ho, hs⟩ <;>
      rw [hp] at h <;> cases h
    cases ho
    exact ⟨vs, _, _, hs⟩

/-- The sample meets the conditions of `C88_exact`. -/
example : (∀ a ∈ (trDump exI).actions, ∀ b ∈ (trDump exI).actions, shapeOf a.action <+: shapeOf b.action → a.action <+: b.action) ∧
    ∀ a ∈ (trDump exI).actions, (a.indices.map JVar.name).Nodup ∧ ∀ v ∈ a.indices, v.name ∉ fixedSyms := by
  constructor <;> decide +kernel

/-- The orders do not say that a choice is made once: `b(0, 0)` and `b(0, 1)` are in the same branch with different values, of which a trace has
one only, and the orders of the problem are true of a list with both. -/
theorem C88_choice_counterexample :
    ∃ (d : Dump) (r : AoO (List Stm)) (l : List Stm) (S : SStr Dv) (U : Sym → Prop) (P : PStr Dv) (points : List Dv) (T : Dv → Prop),
      Faithful (d.ctx exAln) S U false ∧ Agree (d.ctx exAln) S U P ∧ convDump exAln d = .ok r ∧ r.get 0 = some l ∧ CvModel T P l ∧
      CvOrders P l points ∧ ¬ SqTrace d S points := by
  obtain ⟨r, hr, -⟩ := C77_total exAln (Ps := ["A"]) (by simp) (by decide) (trDump_wf (k := exI) (by decide)) (trDump_supp rfl)
  obtain ⟨P, hA, hL⟩ := C79_interpretation (C := (trDump exI).ctx exAln) (by decide) (trMod_faithful exI)
  obtain ⟨l, hl, h1, -⟩ := sound_at (by decide) (trMod_faithful exI) hA hL (trDump_over exI) (trDump_names (by decide)) (Ps := ["A"]) (by decide)
    (trDump_wf (by decide)) hr 0 (by simp) (trMod_model exI)
  refine ⟨trDump exI, r, l, trMod, _, P, [.act (sy "init") [], .act (sy "a") [v0], .act (sy "b") [v0, v0], .act (sy "b") [v0, v1]], _,
    trMod_faithful exI, hA, hr, hl, h1, ?_, ?_⟩
  · refine orders_weak (by decide) (trMod_faithful exI) hA hL (trDump_over exI) (Ps := ["A"]) (by decide)
      (trDump_wf (by decide)) hr (by simp) hl ?_
    constructor
    · intro a ha b hb na nb ds es hds hes hp hne hmem
      simp only [trDump, List.mem_cons, List.not_mem_nil, or_false] at ha hb
      have e1 : Before [Dv.act (sy "init") [], .act (sy "a") [v0], .act (sy "b") [v0, v0], .act (sy "b") [v0, v1]] (.act (sy "a") [v0])
        (.act (sy "b") [v0, v0]) := ⟨1, 2, by simp⟩
      have e2 : Before [Dv.act (sy "init") [], .act (sy "a") [v0], .act (sy "b") [v0, v0], .act (sy "b") [v0, v1]] (.act (sy "a") [v0])
        (.act (sy "b") [v0, v1]) := ⟨1, 3, by simp⟩
      have hi : (sy "init").toStr = "init" := by decide +kernel
      rcases ha with rfl | rfl | rfl | rfl <;> rcases hb with rfl | rfl | rfl | rfl <;>
        first
          | exact absurd hi na
          | exact absurd hi nb
          | skip
      all_goals
        simp only [List.length_cons, List.length_nil, Nat.zero_add, Nat.reduceAdd] at hds hes
        clear na nb
        first
          | obtain ⟨x, rfl⟩ := len1 hds
          | obtain ⟨x, y, rfl⟩ := len2 hds
      all_goals
        first
          | obtain ⟨x', rfl⟩ := len1 hes
          | obtain ⟨x', y', rfl⟩ := len2 hes
      all_goals simp [trMod, exMod, sy, flowAt, exI, exV] at hp hne hmem e1 e2 ⊢
      all_goals rcases hmem with ⟨rfl, rfl⟩ | ⟨rfl, rfl⟩
      all_goals simp_all
    · intro a ha b hb na nb ds es hds hes hc hmem
      simp only [trDump, List.mem_cons, List.not_mem_nil, or_false] at ha hb
      clear na nb
      rcases ha with rfl | rfl | rfl | rfl <;> rcases hb with rfl | rfl | rfl | rfl <;>
        simp only [List.length_cons, List.length_nil, Nat.zero_add, Nat.reduceAdd] at hds hes <;>
        first
          | obtain rfl := len0 hds
          | obtain ⟨x, rfl⟩ := len1 hds
          | obtain ⟨x, y, rfl⟩ := len2 hds
      all_goals
        first
          | obtain rfl := len0 hes
          | obtain ⟨x', rfl⟩ := len1 hes
          | obtain ⟨x', y', rfl⟩ := len2 hes
      all_goals simp [trMod, exMod, sy, flowAt, exI, exV, branches_nil, branches_nil', branches_cons] at hc hmem
  · intro h
    refine h.excl (trB exI) (by simp [trDump, trB]) (trB exI) (by simp [trDump, trB]) [v0, v0] [v0, v1] rfl rfl ?_ ?_
    · simp [flowAt, trB, conflict_cons, conflict_nil, exI, exV, v0, v1]
    · simp [trMod, exMod, trB]

/-- When `b` calls the index of `a` something else, there is no order between them: `b(0, 1)` alone is not a trace, and the orders are true of it. -/
theorem C88_names_counterexample :
    ∃ (d : Dump) (r : AoO (List Stm)) (l : List Stm) (S : SStr Dv) (U : Sym → Prop) (P : PStr Dv) (T : Dv → Prop) (a b : JAct),
      Faithful (d.ctx exAln) S U false ∧ Agree (d.ctx exAln) S U P ∧ convDump exAln d = .ok r ∧ r.get 0 = some l ∧ CvModel T P l ∧
      a ∈ d.actions ∧ b ∈ d.actions ∧ a.name = sy "a" ∧ b.name = sy "b" ∧
      (∀ v w : Dv, flowAt a.action [v] <+: flowAt b.action [v, w] ∧ flowAt a.action [v] ≠ flowAt b.action [v, w]) ∧
      CvOrders P l [S.act b.name [v0, v1]] ∧ ¬ OrdTrace d S [S.act b.name [v0, v1]] := by
  obtain ⟨r, hr, -⟩ := C77_total exAln (Ps := ["A"]) (by simp) (by decide) (trDump_wf (k := exK) (by decide)) (trDump_supp rfl)
  obtain ⟨P, hA, hL⟩ := C79_interpretation (C := (trDump exK).ctx exAln) (by decide) (trMod_faithful exK)
  obtain ⟨l, hl, h1, -⟩ := sound_at (by decide) (trMod_faithful exK) hA hL (trDump_over exK) (trDump_names (by decide)) (Ps := ["A"]) (by decide)
    (trDump_wf (by decide)) hr 0 (by simp) (trMod_model exK)
  have hflow : ∀ v w : Dv, flowAt trA.action [v] <+: flowAt (trB exK).action [v, w] ∧ flowAt trA.action [v] ≠ flowAt (trB exK).action [v, w] := by
    intro v w
    simp [flowAt, trA, trB, exI, exK, exV]
  refine ⟨trDump exK, r, l, trMod, _, P, _, trA, trB exK, trMod_faithful exK, hA, hr, hl, h1, by simp [trDump, trA], by simp [trDump, trB], rfl, rfl,
    hflow, ?_, ?_⟩
  · intro q vs g t₁ op t₂ o hs
    obtain ⟨a, b, o', hab, hp, ho⟩ := (orders_of (by decide) (trMod_faithful exK) hA hL (trDump_over exK) (Ps := ["A"]) (by decide)
      (trDump_wf (by decide)) hr (i := 0) (by simp) hl).1 q vs g t₁ op t₂ o hs
    rw [trDump_actions, ← mem_pairs] at hab
    simp only [pairs, List.map_cons, List.map_nil, List.append_nil, List.mem_append, List.mem_cons, Prod.mk.injEq, List.not_mem_nil, or_false,
      List.cons_append, List.nil_append] at hab
    rcases hab with ⟨rfl, rfl⟩ | ⟨rfl, rfl⟩ | ⟨rfl, rfl⟩
    · rw [C38_no_lemma _ (a := trA.act) (b := (trB exK).act) (by decide) (by decide)] at hp
      cases hp
    · rw [C38_no_lemma _ (a := trA.act) (b := (trBB exK).act) (by decide) (by decide)] at hp
      cases hp
    · obtain ⟨vs', t, e⟩ := trPair_excl exK (by simp [exK]) rfl
      rw [e] at hp
      cases hp
      cases ho
      refine ⟨rfl, rfl, fun e _ hh => ?_⟩
      have hact : P.fn "step_bb" = trMod.act (sy "bb") := by
        have : P.fn (((trDump exK).ctx exAln).san .step (sy "bb").toStr) = trMod.act (sy "bb") := hA.sym (.act (sy "bb")) (by simp [trU])
        rwa [show ((trDump exK).ctx exAln).san .step (sy "bb").toStr = "step_bb" by decide +kernel] at this
      have := hh.2
      simp [pev, hact, trMod, exMod, trB, sy] at this
  · intro h
    have := h.flow trA (by simp [trDump, trA]) (trB exK) (by simp [trDump, trB]) (by decide +kernel) (by decide +kernel) [v0] [v0, v1] rfl rfl
      (hflow _ _).1 (hflow _ _).2 (by simp)
    obtain ⟨i, j, hij, h1, h2⟩ := this
    have h2' := (List.getElem?_eq_some_iff.1 h2).1
    simp at h2'
    omega

end Sq
end CV
