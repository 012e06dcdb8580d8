/-
Acceptance of whole files: a file whose declarations are in order and whose texts are well sorted is made into a problem.
-/
import Verif.ElabAccept
import Verif.LoadMain
import Verif.FileLoad

set_option linter.unusedSimpArgs false

namespace CV
namespace Prs

/-! ## Specification -/

/-- SPECIFICATION. The variables `Δ` have the names and the sorts of the list of bindings. -/
def Bound (D : DEnv) (vs : List Bnd) (Δ : List (String × Srt)) : Prop :=
  List.Forall₂ (fun b d => d.1 = b.1 ∧ D.sorts.lookup b.2 = some d.2) vs Δ

/-- SPECIFICATION. A well-sorted assignment in a step with the variables `Γ`: its own variables are new, the cell is declared and has as many
arguments as parameters, of their sorts, and its contents is a message. -/
structure AssignWs (D : DEnv) (Γ : List (String × Srt)) (a : AssignDecl) : Prop where
  ws : ∃ Δ sorts, Bound D (a.fresh.getD []) Δ ∧ (names Δ).Nodup ∧
    (∀ x ∈ names Δ, x ∉ names Γ ∧ x ∉ D.functions.map (·.1) ∧ x ∉ D.used) ∧
    D.functions.lookup a.cell = some (.cell sorts) ∧ a.args.length = sorts.length ∧
    (∀ p ∈ a.args.zip sorts, Ws D.toEnv .sym (Δ ++ Γ) [] p.1 p.2) ∧ Ws D.toEnv .sym (Δ ++ Γ) [] a.term .message

/-- SPECIFICATION. A well-sorted step with the parameters `ps`: its message is a message, its condition a condition, over the parameters and
the input. -/
structure StepWs (D : DEnv) (ps : List (String × Srt)) (d : StepDecl) : Prop where
  nodup : (names ps ++ ["in"]).Nodup
  message : Ws D.toEnv .sym (ps ++ [("in", .message)]) [] d.message .message
  condition : Ws D.toEnv .sym (ps ++ [("in", .message)]) [] d.condition .condition
  assigns : ∀ a ∈ d.assigns, AssignWs D (ps ++ [("in", .message)]) a

/-- SPECIFICATION. A well-sorted formula. -/
def FormWs (D : DEnv) (Γ : List (String × Srt)) (t : Tm) : Prop := ∃ s, Ws D.toEnv .ev Γ [] t s ∧ Same .ev .bool s

/-- SPECIFICATION. A well-sorted order: between steps, under a guard that is a formula. -/
structure OrderWs (D : DEnv) (o : OrderDecl) : Prop where
  ws : ∃ Δ, Bound D o.vars Δ ∧ (names Δ).Nodup ∧ (∀ g, o.guard = some g → FormWs D Δ g) ∧
    Ws D.toEnv .ev Δ [] o.t1 .step ∧ Ws D.toEnv .ev Δ [] o.t2 .step

/-- SPECIFICATION. A well-sorted file. -/
structure FileWs (D : DEnv) (l : List Decl) : Prop where
  ok : FileOk D l
  texts : ∀ t, Decl.assertion t ∈ l ∨ Decl.lem t ∈ l ∨ Decl.query t ∈ l → FormWs (fileEnv D l) [] t
  steps : ∀ d, Decl.step d ∈ l → ∃ ps, Bound (fileEnv D l) d.params ps ∧ StepWs (fileEnv D l) ps d
  orders : ∀ o, Decl.order o ∈ l → OrderWs (fileEnv D l) o
  crypto : ∀ c, Decl.crypto c ∈ l → ∃ y, CryptoOk (fileEnv D l) c y

/-! ## Texts -/

/-- From `N` on, the outcome is a value, with the given effect on the list of bound variables. -/
def Fine {α : Type} (f : Nat → St → Out (α × St)) (base : List (String × Var)) (N : Nat) : Prop :=
  ∀ n, N ≤ n → ∀ st : St, st.bvars = base → ∃ x st', f n st = .ok (x, st') ∧ ∃ l, st'.bvars = base ++ l

theorem good_of_ws {E : Env} {r Γ D t s s'} (h : Ws E r Γ D t s) (hs : Same r s' s) {base} (hS : Seen Γ D base) :
    ∃ N, Fine (fun n st => parse E n r (.stat s') t st) base N := by
  obtain ⟨N, hN⟩ := accepts h
  refine ⟨N, fun n hn st hb => ?_⟩
  subst hb
  obtain ⟨φ, st', e, p⟩ := hN n hn (.stat s') st hS (Takes.stat hs)
  obtain ⟨l, el, _⟩ := p.bv
  exact ⟨φ, st', e, l, el⟩

theorem Fine.mono {α : Type} {f : Nat → St → Out (α × St)} {base N M} (h : Fine f base N) (k : N ≤ M) : Fine f base M :=
  fun n hn => h n (by omega)

theorem bound_sortList {D : DEnv} : ∀ {vs : List Bnd} {Δ}, Bound D vs Δ →
    D.sortList (vs.map (·.2)) = .ok (Δ.map (·.2)) ∧ vs.map (·.1) = Δ.map (·.1)
  | [], _, h => by cases h; exact ⟨rfl, rfl⟩
  | b :: vs, _, h => by
    cases h with
    | @cons _ d _ Δ h1 h2 =>
      obtain ⟨e1, e2⟩ := bound_sortList h2
      refine ⟨?_, by simp [h1.1, e2]⟩
      simp only [List.map_cons, DEnv.sortList, DEnv.sort, h1.2, Out.ofOption, Out.bind, e1]

theorem fresh_ok {D : DEnv} : ∀ {vs : List Bnd} {Δ Γ : List (String × Srt)} {bv : List (String × Var)} (i : Nat), Seen Γ [] bv → Bound D vs Δ →
    (names Δ).Nodup → (∀ x ∈ names Δ, x ∉ names Γ ∧ x ∉ D.functions.map (·.1) ∧ x ∉ D.used) →
    ∃ v l, (∀ st : St, st.bvars = bv → parseFresh D i vs st = .ok (v, { st with bvars := bv ++ l })) ∧ v.length = l.length ∧
      Seen (Δ ++ Γ) [] (bv ++ l)
  | [], Δ, Γ, bv, i, hS, h, _, _ => by
    cases h
    exact ⟨[], [], fun st e => by subst e; simp [parseFresh], rfl, by simpa using hS⟩
  | b :: vs, Δ, Γ, bv, i, hS, h, hn, hx => by
    cases h with
    | @cons _ d _ Δ' h1 h2 =>
      obtain ⟨x, so⟩ := d
      obtain ⟨e, hs⟩ := h1
      simp only at e hs
      subst e
      simp only [names, List.map_cons, List.nodup_cons] at hn
      obtain ⟨h3, h4, h5⟩ := hx b.1 (by simp [names])
      have hb := hS.dead _ h3 (by simp)
      have hc : D.contains b.1 = false := by
        rw [Bool.eq_false_iff]
        intro h
        rw [D.contains_iff, List.mem_append] at h
        exact h.elim h4 h5
      have hS' := Seen.push (v := ⟨i, so⟩) hS hb
      obtain ⟨v, l, e2, hl, hS2⟩ := fresh_ok (bv := bv ++ [(b.1, ⟨i, so⟩)]) (Γ := (b.1, so) :: Γ) (i + 1) hS' h2 hn.2
        (fun y hy => by
          have := hx y (by simp only [names, List.map_cons, List.mem_cons]; exact .inr hy)
          refine ⟨?_, this.2⟩
          simp only [names, List.map_cons, List.mem_cons, not_or]
          refine ⟨?_, this.1⟩
          rintro rfl
          exact hn.1 hy)
      refine ⟨⟨i, so⟩ :: v, (b.1, ⟨i, so⟩) :: l, ?_, by simp [hl], ?_⟩
      · intro st hst
        have hbv : (st.bvars.map (·.1)).contains b.1 = false := by rw [hst]; simpa [List.contains_eq_mem] using hb
        simp only [parseFresh, DEnv.sort, hs, Out.ofOption, Out.bind, hc, hbv, Bool.or_self, Bool.false_eq_true, if_false]
        rw [e2 _ (by simp [hst])]
        simp only [List.append_assoc, List.singleton_append]
      · have : Seen (Δ' ++ (b.1, so) :: Γ) [] (bv ++ (b.1, ⟨i, so⟩) :: l) := by
          simpa [List.append_assoc] using hS2
        exact this.perm fun p => by simp [or_left_comm, or_assoc]

theorem trunc_eq {st : St} {base l : List (String × Var)} (h : st.bvars = base ++ l) : (st.trunc base.length).bvars = base := by
  simp [St.trunc, h]

theorem cellArgs_ok {E : Env} {Γ : List (String × Srt)} {base : List (String × Var)} (hS : Seen Γ [] base) (σ : Subst PF) :
    ∀ {l : List (Tm × Srt)}, (∀ p ∈ l, Ws E .sym Γ [] p.1 p.2) →
      ∃ N, ∀ n, N ≤ n → ∀ st : St, (∃ m, st.bvars = base ++ m) → ∃ as st', parseCellArgs E n base.length σ l st = .ok (as, st') ∧
        ∃ m, st'.bvars = base ++ m
  | [], _ => ⟨0, fun n _ st h => ⟨[], st, rfl, h⟩⟩
  | (t, s) :: l, h => by
    obtain ⟨N, hN⟩ := good_of_ws (h (t, s) (by simp)) Same.rfl' hS
    obtain ⟨M, hM⟩ := cellArgs_ok hS σ (l := l) fun p hp => h p (by simp [hp])
    refine ⟨max N M, fun n hn st ⟨m, hm⟩ => ?_⟩
    obtain ⟨x, st1, e1, h1⟩ := hN n (by omega) (st.trunc base.length) (trunc_eq hm)
    obtain ⟨as, st2, e2, h2⟩ := hM n (by omega) st1 h1
    refine ⟨σ.apply x :: as, st2, ?_, h2⟩
    simp only at e1
    simp only [parseCellArgs, e1, Out.bind, e2]

theorem assign_ok {D : DEnv} {ps : List (String × Srt)} {a : AssignDecl} (name : String) (hp : (names ps ++ ["in"]).Nodup)
    (h : AssignWs D (ps ++ [("in", .message)]) a) :
    ∃ N, ∀ n, N ≤ n → ∀ st : St, (∃ m, st.bvars = withInput ps ++ m) →
      ∃ x st', parseAssign D n name ps a st = .ok (x, st') ∧ ∃ m, st'.bvars = withInput ps ++ m := by
  obtain ⟨Δ, sorts, h1, h2, h3, h4, h5, h6, h7⟩ := h.ws
  have hS := seen_withInput hp
  have hlen : (withInput ps).length = ps.length + 1 := by simp [withInput, numbered]
  -- the extra variables
  have hv : ∃ v l, v.length = l.length ∧ Seen (Δ ++ (ps ++ [("in", .message)])) [] (withInput ps ++ l) ∧
      ∀ st : St, (∃ m, st.bvars = withInput ps ++ m) → ∃ st', (match a.fresh with
        | some vs => parseFresh D (ps.length + 1) vs (st.trunc (ps.length + 1))
        | none => .ok ([], st)) = .ok (v, st') ∧ ∃ m, st'.bvars = (withInput ps ++ l) ++ m := by
    cases hf : a.fresh with
    | none =>
      rw [hf] at h1
      cases h1
      refine ⟨[], [], rfl, by simpa using hS, fun st ⟨m, hm⟩ => ⟨st, rfl, m, by simpa using hm⟩⟩
    | some vs =>
      rw [hf] at h1
      obtain ⟨v, l, e, hl, hS'⟩ := fresh_ok (ps.length + 1) hS h1 h2 h3
      refine ⟨v, l, hl, hS', fun st ⟨m, hm⟩ => ⟨_, e _ (by rw [← hlen]; exact trunc_eq hm), [], by simp⟩⟩
  obtain ⟨v, l, hvl, hS', hv⟩ := hv
  have hk : ps.length + 1 + v.length = (withInput ps ++ l).length := by simp [hlen, hvl]
  obtain ⟨N, hN⟩ := cellArgs_ok hS' (inputSubst name ps) h6
  obtain ⟨M, hM⟩ := good_of_ws h7 (s' := .message) Same.rfl' hS'
  refine ⟨max N M, fun n hn st hst => ?_⟩
  obtain ⟨st1, e1, h1'⟩ := hv st hst
  obtain ⟨as, st2, e2, m2, h2'⟩ := hN n (by omega) st1 h1'
  obtain ⟨c, st3, e3, m3, h3'⟩ := hM n (by omega) (st2.trunc (withInput ps ++ l).length) (trunc_eq h2')
  refine ⟨⟨name, a.cell, as, (inputSubst name ps).apply c, v⟩, st3, ?_, l ++ m3, by rw [h3', List.append_assoc]⟩
  simp only at e3
  have key : ∀ w, w = Out.ok (v, st1) → w.bind (fun v =>
      (Out.ofOption ((D.functions.lookup a.cell).bind Cache.cellArgs)).bind fun sorts =>
      (parseCellArgs D.toEnv n (ps.length + 1 + v.1.length) (inputSubst name ps) (a.args.zip sorts) v.2).bind fun as =>
      (parse D.toEnv n .sym (.stat .message) a.term (as.2.trunc (ps.length + 1 + v.1.length))).bind fun c =>
        .ok ((⟨name, a.cell, as.1, (inputSubst name ps).apply c.1, v.1⟩ : LAssign), c.2)) =
      .ok (⟨name, a.cell, as, (inputSubst name ps).apply c, v⟩, st3) := by
    rintro w rfl
    simp only [Out.bind, h4, Option.bind, Cache.cellArgs, Out.ofOption, hk, e2, e3]
  simp only [parseAssign]
  cases hf : a.fresh with
  | none => rw [hf] at e1; exact key _ e1
  | some vs => rw [hf] at e1; exact key _ e1

theorem assigns_ok {D : DEnv} {ps : List (String × Srt)} (name : String) (hp : (names ps ++ ["in"]).Nodup) :
    ∀ {l : List AssignDecl}, (∀ a ∈ l, AssignWs D (ps ++ [("in", .message)]) a) →
    ∃ N, ∀ n, N ≤ n → ∀ st : St, (∃ m, st.bvars = withInput ps ++ m) → ∃ x st', parseAssigns D n name ps l st = .ok (x, st')
  | [], _ => ⟨0, fun n _ st _ => ⟨[], st, rfl⟩⟩
  | a :: l, h => by
    obtain ⟨N, hN⟩ := assign_ok name hp (h a (by simp))
    obtain ⟨M, hM⟩ := assigns_ok name hp (l := l) fun b hb => h b (by simp [hb])
    refine ⟨max N M, fun n hn st hst => ?_⟩
    obtain ⟨x, st1, e1, h1⟩ := hN n (by omega) st hst
    obtain ⟨y, st2, e2⟩ := hM n (by omega) st1 h1
    exact ⟨x :: y, st2, by simp only [parseAssigns, e1, Out.bind, e2]⟩

theorem step_accepts {D : DEnv} {ps : List (String × Srt)} {d : StepDecl} (name : String) (h : StepWs D ps d) :
    ∃ N, ∀ n, N ≤ n → ∀ st : St, ∃ x st', parseStep D n name ps d st = .ok (x, st') := by
  have hS := seen_withInput h.nodup
  have hlen : (withInput ps).length = ps.length + 1 := by simp [withInput, numbered]
  obtain ⟨N1, h1⟩ := good_of_ws h.message (s' := .message) Same.rfl' hS
  obtain ⟨N2, h2⟩ := good_of_ws h.condition (s' := .condition) Same.rfl' hS
  obtain ⟨N3, h3⟩ := assigns_ok name h.nodup h.assigns
  refine ⟨max N1 (max N2 N3), fun n hn st => ?_⟩
  obtain ⟨m, st1, e1, m1, k1⟩ := h1 n (by omega) { st with bvars := withInput ps } rfl
  obtain ⟨c, st2, e2, m2, k2⟩ := h2 n (by omega) (st1.trunc (withInput ps).length) (trunc_eq k1)
  obtain ⟨as, st3, e3⟩ := h3 n (by omega) (st2.trunc (withInput ps).length) ⟨[], by rw [trunc_eq k2]; simp⟩
  simp only at e1 e2
  rw [hlen] at e2 e3
  exact ⟨_, _, by simp only [parseStep, e1, Out.bind, e2, e3]; exact rfl⟩

theorem steps_ok {D : DEnv} : ∀ {fs : List (String × Cache)}, (∀ p ∈ stepsOf fs, StepWs D p.2.1 p.2.2) →
    ∃ N, ∀ n, N ≤ n → ∀ st : St, ∃ x st', parseSteps D n fs st = .ok (x, st')
  | [], _ => ⟨0, fun n _ st => ⟨_, _, rfl⟩⟩
  | (name, c) :: l, h => by
    obtain ⟨M, hM⟩ := steps_ok (fs := l) fun p hp => h p (by rw [stepsOf_cons]; simp [hp])
    cases c with
    | step ps d =>
      obtain ⟨N, hN⟩ := step_accepts name (h (name, ps, d) (by simp [stepsOf]))
      refine ⟨max N M, fun n hn st => ?_⟩
      obtain ⟨x, st1, e1⟩ := hN n (by omega) st
      obtain ⟨y, st2, e2⟩ := hM n (by omega) st1
      exact ⟨_, _, by simp only [parseSteps, e1, Out.bind, e2]; exact rfl⟩
    | _ => exact ⟨M, fun n hn st => by simpa only [parseSteps] using hM n hn st⟩

theorem assert_ok {D : DEnv} {t : Tm} (h : FormWs D [] t) :
    ∃ N, ∀ n, N ≤ n → ∀ st : St, ∃ φ st', parseAssert D.toEnv n t st = .ok (φ, st') := by
  obtain ⟨s, h, hs⟩ := h
  obtain ⟨N, hN⟩ := good_of_ws h hs (base := []) (seen_numbered (ps := []) (by simp [names]))
  refine ⟨N, fun n hn st => ?_⟩
  obtain ⟨x, st', e, -⟩ := hN n hn { st with bvars := [] } rfl
  exact ⟨x, st', e⟩

theorem asserts_ok {D : DEnv} : ∀ {l : List Tm}, (∀ t ∈ l, FormWs D [] t) →
    ∃ N, ∀ n, N ≤ n → ∀ st : St, ∃ x st', parseAsserts D.toEnv n l st = .ok (x, st')
  | [], _ => ⟨0, fun n _ st => ⟨_, _, rfl⟩⟩
  | t :: l, h => by
    obtain ⟨N, hN⟩ := assert_ok (h t (by simp))
    obtain ⟨M, hM⟩ := asserts_ok (l := l) fun b hb => h b (by simp [hb])
    refine ⟨max N M, fun n hn st => ?_⟩
    obtain ⟨x, st1, e1⟩ := hN n (by omega) st
    obtain ⟨y, st2, e2⟩ := hM n (by omega) st1
    exact ⟨_, _, by simp only [parseAsserts, e1, Out.bind, e2]; exact rfl⟩

theorem zip_bound {vs : List Bnd} {Δ : List (String × Srt)} (h : vs.map (·.1) = Δ.map (·.1)) : (vs.map (·.1)).zip (Δ.map (·.2)) = Δ := by
  rw [h, List.zip_map']
  simp

theorem order_accepts {D : DEnv} {o : OrderDecl} (h : OrderWs D o) :
    ∃ N, ∀ n, N ≤ n → ∀ st : St, ∃ x st', parseOrderDecl D n o st = .ok (x, st') := by
  obtain ⟨Δ, h1, h2, h3, h4, h5⟩ := h.ws
  obtain ⟨e1, e2⟩ := bound_sortList h1
  have hS := seen_numbered h2
  have hg : ∃ N, Fine (fun n st => parseGuard D n o.guard st) (numbered Δ) N := by
    cases hg : o.guard with
    | none => exact ⟨0, fun n _ st hb => ⟨_, _, rfl, [], by simpa using hb⟩⟩
    | some g =>
      obtain ⟨s, hw, hs⟩ := h3 g hg
      exact good_of_ws hw hs hS
  obtain ⟨N1, k1⟩ := hg
  obtain ⟨N2, k2⟩ := good_of_ws h4 (s' := .step) Same.rfl' hS
  obtain ⟨N3, k3⟩ := good_of_ws h5 (s' := .step) Same.rfl' hS
  refine ⟨max N1 (max N2 N3), fun n hn st => ?_⟩
  obtain ⟨g, st1, f1, m1, j1⟩ := k1 n (by omega) { st with bvars := numbered Δ } rfl
  obtain ⟨a, st2, f2, m2, j2⟩ := k2 n (by omega) (st1.trunc (numbered Δ).length) (trunc_eq j1)
  obtain ⟨b, st3, f3, m3, j3⟩ := k3 n (by omega) (st2.trunc (numbered Δ).length) (trunc_eq j2)
  simp only at f1 f2 f3
  exact ⟨_, _, by simp only [parseOrderDecl, e1, Out.bind, zip_bound e2, f1, f2, f3]; exact rfl⟩

theorem orders_ok {D : DEnv} : ∀ {l : List OrderDecl}, (∀ o ∈ l, OrderWs D o) →
    ∃ N, ∀ n, N ≤ n → ∀ st : St, ∃ x st', parseOrders D n l st = .ok (x, st')
  | [], _ => ⟨0, fun n _ st => ⟨_, _, rfl⟩⟩
  | t :: l, h => by
    obtain ⟨N, hN⟩ := order_accepts (h t (by simp))
    obtain ⟨M, hM⟩ := orders_ok (l := l) fun b hb => h b (by simp [hb])
    refine ⟨max N M, fun n hn st => ?_⟩
    obtain ⟨x, st1, e1⟩ := hN n (by omega) st
    obtain ⟨y, st2, e2⟩ := hM n (by omega) st1
    exact ⟨_, _, by simp only [parseOrders, e1, Out.bind, e2]; exact rfl⟩

theorem cryptos_ok {D : DEnv} : ∀ {l : List CryptoDecl}, (∀ c ∈ l, ∃ y, CryptoOk D c y) → ∃ ys, parseCryptos D l = .ok ys
  | [], _ => ⟨[], rfl⟩
  | c :: l, h => by
    obtain ⟨y, hy⟩ := h c (by simp)
    obtain ⟨ys, hys⟩ := cryptos_ok (l := l) fun c hc => h c (by simp [hc])
    exact ⟨y :: ys, by simp only [parseCryptos, (C45_recognised_partial D c y).2 hy, Out.bind, hys]⟩

/-- The step every file has. -/
theorem init_ws {sh : Bool} {l : List Decl} (h : FileOk (env0 sh) l) : StepWs (fileEnv (env0 sh) l) [] initDecl where
  nodup := by simp [names]
  message := by
    have h1 : (fileEnv (env0 sh) l).functions.lookup "empty" = some (.func ⟨.sym "empty", .fixed [] .message, false⟩) :=
      (C57_names _ l h).2.2.2.2.1 _ _ (by with_unfolding_all rfl)
    have h3 : funOf (fileEnv (env0 sh) l).toEnv .sym "empty" = some ⟨.sym "empty", .fixed [] .message, false⟩ := by
      rw [funOf, if_neg (by decide), if_neg (by decide), if_neg (by decide)]
      simp only [DEnv.toEnv, h1, Option.map_some, Cache.info]
    exact Ws.const (i := ⟨.sym "empty", .fixed [] .message, false⟩) (o := .message) (by simp [names]) (by simp) h3 rfl
  condition := by
    have h1 : (fileEnv (env0 sh) l).functions.lookup "ta$true" = some (.func ⟨.taTrue, .fixed [] .condition, false⟩) :=
      (C57_names _ l h).2.2.2.2.1 _ _ (by with_unfolding_all rfl)
    have h3 : funOf (fileEnv (env0 sh) l).toEnv .sym "ta$true" = some ⟨.taTrue, .fixed [] .condition, false⟩ := by
      rw [funOf, if_neg (by decide), if_neg (by decide), if_neg (by decide)]
      simp only [DEnv.toEnv, h1, Option.map_some, Cache.info]
    exact Ws.const (i := ⟨.taTrue, .fixed [] .condition, false⟩) (o := .condition) (by simp [names]) (by simp) h3 rfl
  assigns := by simp [initDecl]

theorem bound_sortD {D : DEnv} : ∀ {vs : List Bnd} {Δ}, Bound D vs Δ → Δ = vs.map fun b => (b.1, D.sortD b.2)
  | [], _, h => by cases h; rfl
  | b :: vs, _, h => by
    cases h with
    | @cons _ d _ Δ h1 h2 =>
      obtain ⟨x, s⟩ := d
      obtain ⟨e, h⟩ := h1
      simp only at e h
      rw [bound_sortD h2, List.map_cons, e, DEnv.sortD, h]
      rfl

/-! ## The bound on recursion is irrelevant -/

theorem parseCellArgs_le (E : Env) {n m : Nat} (h : n ≤ m) (k σ) : ∀ l st, OLe (parseCellArgs E n k σ l st) (parseCellArgs E m k σ l st)
  | [], _ => .refl _
  | (_, _) :: l, _ => (parse_le E h _ _ _ _).bind fun x => (parseCellArgs_le E h k σ l x.2).bind fun _ => .refl _

theorem parseAssigns_le (D : DEnv) {n m : Nat} (h : n ≤ m) (name ps) : ∀ l st, OLe (parseAssigns D n name ps l st) (parseAssigns D m name ps l st)
  | [], _ => .refl _
  | a :: l, st => by
    refine OLe.bind ?_ fun x => (parseAssigns_le D h name ps l x.2).bind fun _ => .refl _
    exact (OLe.refl _).bind fun v => (OLe.refl _).bind fun _ => (parseCellArgs_le _ h _ _ _ _).bind fun _ => (parse_le _ h _ _ _ _).bind fun _ => .refl _

theorem parseSteps_le (D : DEnv) {n m : Nat} (h : n ≤ m) : ∀ fs st, OLe (parseSteps D n fs st) (parseSteps D m fs st)
  | [], _ => .refl _
  | (name, c) :: l, st => by
    cases c with
    | step ps d =>
      refine OLe.bind ?_ fun x => (parseSteps_le D h l x.2).bind fun _ => .refl _
      exact (parse_le _ h _ _ _ _).bind fun _ => (parse_le _ h _ _ _ _).bind fun _ => (parseAssigns_le D h _ _ _ _).bind fun _ => .refl _
    | _ => exact parseSteps_le D h l st

theorem parseAsserts_le (E : Env) {n m : Nat} (h : n ≤ m) : ∀ l st, OLe (parseAsserts E n l st) (parseAsserts E m l st)
  | [], _ => .refl _
  | _ :: l, _ => (parse_le E h _ _ _ _).bind fun x => (parseAsserts_le E h l x.2).bind fun _ => .refl _

theorem parseOrders_le (D : DEnv) {n m : Nat} (h : n ≤ m) : ∀ l st, OLe (parseOrders D n l st) (parseOrders D m l st)
  | [], _ => .refl _
  | o :: l, st => by
    refine OLe.bind ?_ fun x => (parseOrders_le D h l x.2).bind fun _ => .refl _
    refine (OLe.refl _).bind fun _ => OLe.bind ?_ fun _ => (parse_le _ h _ _ _ _).bind fun _ => (parse_le _ h _ _ _ _).bind fun _ => .refl _
    cases o.guard with
    | none => exact .refl _
    | some g => exact parse_le _ h _ _ _ _

theorem load_le (ord : List (String × Cache) → List (String × Cache)) (ig : Bool) (D : DEnv) (l : List Decl) {n m : Nat} (h : n ≤ m) :
    OLe (load ord n ig D l) (load ord m ig D l) := by
  refine (OLe.refl _).bind fun _ => (OLe.refl _).bind fun Fq => (parseSteps_le _ h _ _).bind fun _ => (parseAsserts_le _ h _ _).bind fun _ =>
    (parse_le _ h _ _ _ _).bind fun _ => (OLe.refl _).bind fun _ => OLe.bind ?_ fun _ => (parseOrders_le _ h _ _).bind fun _ => .refl _
  cases ig
  · exact parseAsserts_le _ h _ _
  · exact .refl _

/-! ## The theorems -/

/-- **C82 (terms).** A well-sorted term is elaborated, if a sort that is the same as its own is expected, wherever its variables are in
scope: from some fuel on the outcome is a formula. -/
theorem C82_term (E : Env) (r : Realm) (ps : List (String × Srt)) (t : Tm) (s s' : Srt) (hp : (names ps).Nodup)
    (h : Ws E r ps [] t s) (hs : Same r s' s) :
    ∃ N, ∀ n, N ≤ n → ∀ st : St, ∃ φ st', parse E n r (.stat s') t { st with bvars := numbered ps } = .ok (φ, st') := by
  obtain ⟨N, hN⟩ := good_of_ws h hs (seen_numbered hp)
  refine ⟨N, fun n hn st => ?_⟩
  obtain ⟨x, st', e, -⟩ := hN n hn { st with bvars := numbered ps } rfl
  exact ⟨x, st', e⟩

/-- **C82 (one outcome).** If the elaboration of a file ends within two bounds on recursion, the outcome (problem, error or panic) is the
same. -/
theorem C82_outcome (ord : List (String × Cache) → List (String × Cache)) (ig : Bool) (D : DEnv) (l : List Decl) (n m : Nat)
    (hn : load ord n ig D l ≠ .loop) (hm : load ord m ig D l ≠ .loop) : load ord n ig D l = load ord m ig D l := by
  rcases Nat.le_total n m with h | h
  · exact (load_le ord ig D l h hn).symm
  · exact load_le ord ig D l h hm

/-- **C82.** A file whose declarations are in order and whose texts are well sorted is made into a problem: the elaboration ends,
without an error and without a panic, in whatever order the functions are visited, and whether or not lemmas are ignored. -/
theorem C82_accepted (ord : List (String × Cache) → List (String × Cache)) (hord : ∀ l, (ord l).Perm l) (ig sh : Bool) (l : List Decl)
    (h : FileWs (env0 sh) l) : ∃ P N, ∀ n, N ≤ n → load ord n ig (env0 sh) l = .ok P := by
  suffices hs : ∃ N, ∀ n, N ≤ n → ∃ P, load ord n ig (env0 sh) l = .ok P by
    obtain ⟨N, hN⟩ := hs
    obtain ⟨P, hP⟩ := hN N (Nat.le_refl _)
    exact ⟨P, N, fun n hn => (load_le ord ig _ l hn (by rw [hP]; nofun)).trans hP⟩
  have hD : (env0 sh).Base := env0_base sh
  obtain ⟨q, hq⟩ : ∃ q, queriesOf l = [q] := List.length_eq_one_iff.1 h.ok.query
  obtain ⟨F, hF⟩ : ∃ F, (declareSorts l (env0 sh)).bind (fetchAll l) = .ok (F, q) := by
    refine ⟨⟨fileEnv (env0 sh) l, assertionsOf l, lemmasOf l, ordersOf l, cryptosOf l, some q, false, (stepDecls l).any (·.name == "init")⟩, ?_⟩
    rw [C24_accepted_iff]
    exact ⟨h.ok, rfl, rfl, rfl, rfl, rfl, hq, rfl, rfl, rfl⟩
  obtain ⟨-, e1, e2, e3, e4, e5, e6, -⟩ := (C24_accepted_iff _ l F q).1 hF
  have hNT : F.env.toEnv.NoTaq := by rw [e1]; exact fileEnv_notaq hD l
  have hp : (stepsOf (ord F.env.functions)).Perm (declaredSteps (env0 sh) l) := by
    rw [← stepsOf_fileEnv hD, e1]; exact ((hord _).filterMap _)
  obtain ⟨N1, h1⟩ := steps_ok (D := F.env) (fs := ord F.env.functions) (by
    intro p hp'
    rw [e1]
    have hp' := hp.mem_iff.1 hp'
    simp only [declaredSteps, List.mem_append, List.mem_map] at hp'
    rcases hp' with ⟨d, hd, rfl⟩ | ⟨n, hn, rfl⟩
    · obtain ⟨x, hx, e⟩ := List.mem_filterMap.1 hd
      cases x <;> simp only [Option.some.injEq, reduceCtorEq] at e
      subst e
      obtain ⟨ps, b, w⟩ := h.steps _ hx
      rw [← bound_sortD b]
      exact w
    · exact init_ws h.ok)
  obtain ⟨N2, h2⟩ := asserts_ok (D := F.env) (l := F.assertions) (by
    intro t ht
    rw [e2] at ht
    rw [e1]
    obtain ⟨d, hd, e⟩ := List.mem_filterMap.1 ht
    cases d <;> simp only [reduceCtorEq, Option.some.injEq] at e
    subst e; exact h.texts _ (.inl hd))
  obtain ⟨N3, h3⟩ := assert_ok (D := F.env) (t := q) (by
    have ht : q ∈ queriesOf l := by rw [e6]; simp
    rw [e1]
    obtain ⟨d, hd, e⟩ := List.mem_filterMap.1 ht
    cases d <;> simp only [reduceCtorEq, Option.some.injEq] at e
    subst e; exact h.texts _ (.inr (.inr hd)))
  obtain ⟨N4, h4⟩ := asserts_ok (D := F.env) (l := F.lemmas) (by
    intro t ht
    rw [e3] at ht
    rw [e1]
    obtain ⟨d, hd, e⟩ := List.mem_filterMap.1 ht
    cases d <;> simp only [reduceCtorEq, Option.some.injEq] at e
    subst e; exact h.texts _ (.inr (.inl hd)))
  obtain ⟨N5, h5⟩ := orders_ok (D := F.env) (l := F.orders) (by
    intro o ho
    rw [e4] at ho
    rw [e1]
    obtain ⟨d, hd, e⟩ := List.mem_filterMap.1 ho
    cases d <;> simp only [reduceCtorEq, Option.some.injEq] at e
    subst e; exact h.orders _ hd)
  obtain ⟨cs, hcs⟩ := cryptos_ok (D := F.env) (l := F.crypto) (by
    intro c hc
    rw [e5] at hc
    rw [e1]
    obtain ⟨d, hd, e⟩ := List.mem_filterMap.1 hc
    cases d <;> simp only [reduceCtorEq, Option.some.injEq] at e
    subst e; exact h.crypto _ hd)
  refine ⟨N1 + N2 + N3 + N4 + N5, fun n hn => ?_⟩
  obtain ⟨ss, st1, k1⟩ := h1 n (by omega) ⟨[], [], []⟩
  obtain ⟨as, st2, k2⟩ := h2 n (by omega) st1
  obtain ⟨qq, st3, k3⟩ := h3 n (by omega) st2
  obtain ⟨ls, st4, k4⟩ : ∃ ls st4, (if ig then .ok ([], st3) else parseAsserts F.env.toEnv n F.lemmas st3) = .ok (ls, st4) := by
    cases ig
    · simpa using h4 n (by omega) st3
    · exact ⟨_, _, rfl⟩
  obtain ⟨os, st5, k5⟩ := h5 n (by omega) st4
  have hsw : swapInit ss.1 ≠ none := by
    intro hsw
    apply swapInit_none hsw
    obtain ⟨-, zs, z1, z2, z3⟩ := parseSteps_good hNT k1
    have hn := names_elab z3
    have : ss.1.map (·.name) = zs.map (·.1.name) := by
      simp only at z1
      rw [z1]; simp
    rw [this, hn]
    exact (hp.map _).mem_iff.2 (init_declared _ l)
  obtain ⟨steps, hst⟩ := Option.ne_none_iff_exists'.1 hsw
  obtain ⟨D1, d1, d2⟩ := bind_ok.1 hF
  refine ⟨⟨F.env, steps, mkCells ss.2 (ord F.env.functions), os, as, ls, qq, cs, st5.tbl⟩, ?_⟩
  simp only [load, d1, Out.bind, d2, k1, k2, k3, hcs, hst]
  rw [k4]
  simp only [k5]

/-- **C82 (texts).** A text that reads as statements (C72 and C75 say what that means) whose declarations are in order and whose terms are
well sorted is made into a problem, in both builds. -/
theorem C82_text (dbg : Bool) (U : Char → Bool) (ord : List (String × Cache) → List (String × Cache)) (hord : ∀ l, (ord l).Perm l)
    (ig sh : Bool) (l : List Txt2.Stm) (s : Txt2.Tx) (hs : Txt2.Reads dbg U s (.ok l)) (h : FileWs (env0 sh) (l.map Txt2.Stm.decl)) :
    ∃ P N, ∀ n k, N ≤ n → N ≤ k → Txt2.loadText dbg U ord n k ig sh s = some (.ok P) := by
  obtain ⟨P, N, hN⟩ := C82_accepted ord hord ig sh _ h
  obtain ⟨M, hM⟩ := hs
  exact ⟨P, max N M, fun n k hn hk => by simp only [Txt2.loadText, hM n (by omega), Option.map_some, Out.bind, hN k (by omega)]⟩

/-! ## A file -/

theorem ex_happens {Γ : List (String × Srt)} {t : Tm} (h : Ws exFE.toEnv .ev Γ [] t .step) : Ws exFE.toEnv .ev Γ [] (.app "happens" [t]) .bool :=
  Ws.app (i := ⟨.sym "happens", .fixed [.step] .bool, false⟩) (a := [.step]) (o := .bool) rfl rfl rfl (.cons h rfl .nil)

theorem ex_init {Γ : List (String × Srt)} (h : "init" ∉ names Γ) : Ws exFE.toEnv .ev Γ [] (.cvar "init") .step :=
  Ws.const (i := ⟨.sym "init", .fixed [] .step, false⟩) (o := .step) h (by simp) rfl rfl

theorem ex_s {Γ : List (String × Srt)} {x : String} (h : (x, .user 6) ∈ Γ) : Ws exFE.toEnv .ev Γ [] (.app "s" [.cvar x]) .step :=
  Ws.app (i := ⟨.sym "s", .fixed [.user 6] .step, false⟩) (a := [.user 6]) (o := .step) rfl rfl rfl (.cons (.var h (by decide)) rfl .nil)

theorem ex_nonce {Γ : List (String × Srt)} {x : String} (h : (x, .user 6) ∈ Γ) : Ws exFE.toEnv .sym Γ [] (.app "n" [.cvar x]) .message :=
  Ws.app (i := ⟨.sym "n", .fixed [.user 6] .name, true⟩) (a := [.user 6]) (o := .name) rfl rfl rfl (.cons (.var h (by decide)) rfl .nil)

theorem exStep_ws : StepWs exFE [("i", .user 6)] exStep where
  nodup := by decide
  message := Ws.app (i := ⟨.sym "h", .fixed [.message, .message] .message, false⟩) (a := [.message, .message]) (o := .message) rfl rfl rfl
    (.cons (.var (s := .message) (by simp) (by decide)) rfl (.cons (ex_nonce (by simp)) rfl .nil))
  condition := .eqSym (.cons (.var (s := .message) (by simp) (by decide)) rfl (.cons (ex_nonce (by simp)) rfl .nil))
  assigns a ha := by
    simp only [exStep, List.mem_singleton] at ha
    subst ha
    refine ⟨[("j", .user 6)], [.user 6], .cons ⟨rfl, by with_unfolding_all rfl⟩ .nil, by simp [names], ?_, by with_unfolding_all rfl, rfl, ?_, ex_nonce (by simp)⟩
    · intro x hx
      simp only [names, List.map_cons, List.map_nil, List.mem_singleton] at hx
      subst hx
      decide +kernel
    · intro p hp
      simp only [List.zip_cons_cons, List.zip_nil_right, List.mem_singleton] at hp
      subst hp
      exact .var (by simp) (by decide)

/-- The file of `LoadMain` is well sorted. -/
theorem exFile_ws : FileWs (env0 true) exFile where
  ok := by
    obtain ⟨P, hP⟩ := exFile_loads
    simp only [load] at hP
    obtain ⟨D1, h1, hP⟩ := bind_ok.1 hP
    obtain ⟨Fq, h2, hP⟩ := bind_ok.1 hP
    exact ((C24_accepted_iff _ _ Fq.1 Fq.2).1 (bind_ok.2 ⟨D1, h1, h2⟩)).1
  texts t ht := by
    simp only [exFile, List.mem_cons, List.not_mem_nil, reduceCtorEq, or_false, false_or, Decl.assertion.injEq, Decl.lem.injEq, Decl.query.injEq] at ht
    rcases ht with rfl | rfl | rfl
    · exact ⟨.bool, ex_happens (ex_init (by simp)), rfl⟩
    · exact ⟨.bool, ex_happens (ex_init (by simp)), rfl⟩
    · refine ⟨.bool, .quant (Δ := [("i", .user 6)]) ⟨.cons ⟨rfl, by with_unfolding_all rfl⟩ .nil, by simp [names], ?_⟩ (ex_happens (ex_s (by simp))) rfl, rfl⟩
      intro x hx
      exact ⟨by simp, by simp, .inl rfl⟩
  steps d hd := by
    simp only [exFile, List.mem_cons, List.not_mem_nil, reduceCtorEq, or_false, false_or, Decl.step.injEq] at hd
    subst hd
    exact ⟨[("i", .user 6)], .cons ⟨rfl, by with_unfolding_all rfl⟩ .nil, exStep_ws⟩
  orders o ho := by
    simp only [exFile, List.mem_cons, List.not_mem_nil, reduceCtorEq, or_false, false_or, Decl.order.injEq] at ho
    subst ho
    exact ⟨[("i", .user 6)], .cons ⟨rfl, by with_unfolding_all rfl⟩ .nil, by simp [names], nofun, ex_s (by simp), ex_init (by simp [names])⟩
  crypto c hc := by
    simp only [exFile, List.mem_cons, List.not_mem_nil, reduceCtorEq, or_false, false_or, Decl.crypto.injEq] at hc
    rcases hc with rfl | rfl
    · exact ⟨_, .nonce⟩
    · exact ⟨.ufCma "h" "v" true, (C45_recognised_partial _ _ _).1 (by with_unfolding_all rfl)⟩

example : ∃ P N, ∀ n, N ≤ n → load List.reverse n true (env0 true) exFile = .ok P :=
  C82_accepted _ (fun l => l.reverse_perm) true true _ exFile_ws

/-- The text of `FileLoad` reads as a well-sorted file. -/
theorem exText_ws (dbg : Bool) (U : Char → Bool) : ∃ l, Txt2.Reads dbg U Txt2.exText (.ok l) ∧ FileWs (env0 true) (l.map Txt2.Stm.decl) := by
  refine ⟨_, .at 120 (by cases dbg <;> with_unfolding_all rfl), ?_⟩
  have hl : ∀ l : List Decl, l = [.type "T", .func "n" ["T"] "Name", .func "f" ["Message"] "Message",
      .step ⟨"s", [("i", "T")], .cvar "true", .app "f" [.app "n" [.cvar "i"]], []⟩,
      .query (.quant .all [("i", "T")] (.app "happens" [.app "s" [.cvar "i"]]))] → FileWs (env0 true) l := by
    rintro l rfl
    refine ⟨?_, ?_, ?_, by simp, by simp⟩
    · have hP : (load id 8 false (env0 true) [.type "T", .func "n" ["T"] "Name", .func "f" ["Message"] "Message",
          .step ⟨"s", [("i", "T")], .cvar "true", .app "f" [.app "n" [.cvar "i"]], []⟩,
          .query (.quant .all [("i", "T")] (.app "happens" [.app "s" [.cvar "i"]]))]).isOk = true := by decide +kernel
      obtain ⟨P, hP⟩ := Out.isOk_iff.1 hP
      simp only [load] at hP
      obtain ⟨D1, h1, hP⟩ := bind_ok.1 hP
      obtain ⟨Fq, h2, hP⟩ := bind_ok.1 hP
      exact ((C24_accepted_iff _ _ Fq.1 Fq.2).1 (bind_ok.2 ⟨D1, h1, h2⟩)).1
    · intro t ht
      simp only [List.mem_cons, List.not_mem_nil, reduceCtorEq, or_false, false_or, Decl.query.injEq] at ht
      subst ht
      refine ⟨.bool, .quant (Δ := [("i", .user 6)]) ⟨.cons ⟨rfl, by with_unfolding_all rfl⟩ .nil, by simp [names], fun x hx => ⟨by simp, by simp, .inl rfl⟩⟩
        (.app (i := ⟨.sym "happens", .fixed [.step] .bool, false⟩) (a := [.step]) (o := .bool) (by with_unfolding_all rfl) rfl rfl
          (.cons (.app (i := ⟨.sym "s", .fixed [.user 6] .step, false⟩) (a := [.user 6]) (o := .step) (by with_unfolding_all rfl) rfl rfl
            (.cons (.var (s := .user 6) (by simp) (by decide)) rfl .nil)) rfl .nil)) rfl, rfl⟩
    · intro d hd
      simp only [List.mem_cons, List.not_mem_nil, reduceCtorEq, or_false, false_or, Decl.step.injEq] at hd
      subst hd
      refine ⟨[("i", .user 6)], .cons ⟨rfl, by with_unfolding_all rfl⟩ .nil, by decide, ?_, ?_, by simp⟩
      · exact .app (i := ⟨.sym "f", .fixed [.message] .message, false⟩) (a := [.message]) (o := .message) (by with_unfolding_all rfl) rfl rfl
          (.cons (.app (i := ⟨.sym "n", .fixed [.user 6] .name, true⟩) (a := [.user 6]) (o := .name) (by with_unfolding_all rfl) rfl rfl
            (.cons (.var (s := .user 6) (by simp) (by decide)) rfl .nil)) rfl .nil)
      · exact .const (i := ⟨.taTrue, .fixed [] .condition, false⟩) (o := .condition) (by decide) (by simp) (by with_unfolding_all rfl) rfl
  exact hl _ (by with_unfolding_all rfl)

example (dbg : Bool) (U : Char → Bool) : ∃ P N, ∀ n k, N ≤ n → N ≤ k → Txt2.loadText dbg U id n k false true Txt2.exText = some (.ok P) := by
  obtain ⟨l, h1, h2⟩ := exText_ws dbg U
  exact C82_text dbg U id (fun _ => .refl _) false true l _ h1 h2

/-! ## What is not accepted, and what is accepted beside -/

/-- **C82, not more (indices).** Two variables of an index type cannot be compared in a step or a cell: the equality of protocol terms is
between messages only, although in a formula `i = j` is accepted. -/
theorem C82_index_counterexample :
    (∀ n (st : St) x, parse exFE.toEnv n .sym (.stat .condition) (.infx .eq [.cvar "i", .cvar "j"])
      { st with bvars := numbered [("i", .user 6), ("j", .user 6)] } ≠ Out.ok x) ∧
    ∃ N, ∀ n, N ≤ n → ∀ st : St, ∃ φ st', parse exFE.toEnv n .ev (.stat .bool) (.infx .eq [.cvar "i", .cvar "j"])
      { st with bvars := numbered [("i", .user 6), ("j", .user 6)] } = Out.ok (φ, st') := by
  refine ⟨fun n st x => ?_, ?_⟩
  · match n with
    | 0 => nofun
    | 1 => nofun
    | 2 => nofun
    | n + 3 => nofun
  · exact C82_term _ _ _ _ .bool _ (by decide) (.eqEv (sa := .user 6) (sb := .user 6) (.var (by simp) (by decide)) (.var (by simp) (by decide)) rfl) rfl

/-- **C82, more (sorts).** In a formula an equality between a step and a Boolean is accepted. -/
theorem C82_mixed_counterexample : ∃ x, parseAssert exFE.toEnv 6 (.infx .eq [.cvar "init", .app "happens" [.cvar "init"]]) ⟨[], [], []⟩ =
    .ok x := Out.isOk_iff.1 (by decide +kernel)

end Prs
end CV
