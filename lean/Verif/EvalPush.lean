import Verif.EvaluateProps
set_option linter.unusedSimpArgs false
/-
C33: propagating evaluation through assertions and queries.
-/
namespace CV
namespace Ev
open Dep SmtM Fm
variable {F D : Type}

/-! ## Specification -/

/-- A signature: the sorts of the arguments and of the result. -/
abbrev Sig (F : Type) := F → Option (List Srt × Srt)

/-- SPECIFICATION. Well sorted terms without first-order quantifier; `Γ` gives the sorts of the variables. -/
inductive WS (sig : Sig F) (Γ : Nat → Srt) : Fm F → Srt → Prop
  | var (v : Var) : Γ v.id = v.sort → WS sig Γ (.var v) v.sort
  | app {f args sorts out} : sig f = some (sorts, out) → args.length = sorts.length →
      (∀ p ∈ args.zip sorts, WS sig Γ p.1 p.2) → WS sig Γ (.app f args) out

/-- SPECIFICATION. The structure, the signature and the problem agree on the sorts of the symbols; every
evaluation symbol is the one of its sort; the sorts with an evaluation symbol are those that can be
evaluated. -/
structure Typing (E : Cfg F) (M : Str F D) (sig : Sig F) : Prop where
  out : ∀ f args out, sig f = some (args, out) → E.L.out f = some out
  fn : ∀ f args out, sig f = some (args, out) → ∀ ds, List.Forall₂ M.dom args ds → M.dom out (M.fn f ds)
  base : ∀ f args out ev, E.kind f = .base args out ev → sig f = some (args, out)
  conn : ∀ f args ev, E.kind f = .conn args ev → sig f = some (args, .condition)
  eqTa : ∀ f, E.kind f = .eqTa → sig f = some ([.message, .message], .condition)
  notTa : ∀ f, E.kind f = .notTa → sig f = some ([.condition], .condition)
  ev : ∀ f, E.kind f = .evaluate → ∃ s o, sig f = some ([s], o) ∧ E.evs.lookup s = some f
  evs : ∀ s, E.evalSort s = none → E.evs.lookup s = none

/-- SPECIFICATION. The valuation gives values of their sorts to the variables. -/
def Resp (M : Str F D) (Γ : Nat → Srt) (ρ : Valn D) : Prop := ∀ i, M.dom (Γ i) (ρ i)

/-- SPECIFICATION. The sorts of the variables under a binder. -/
def upd (Γ : Nat → Srt) : List Var → Nat → Srt
  | [] => Γ
  | v :: vs => upd (fun i => if i = v.id then v.sort else Γ i) vs

/-- SPECIFICATION. Terms whose evaluation can be pushed down: well sorted, with no variable of a sort that can
be evaluated and no `forall`/`exists` symbol among the symbols reached through base functions and
connectives. -/
inductive Pushable (E : Cfg F) (sig : Sig F) (Γ : Nat → Srt) : Fm F → Srt → Prop
  | var (v : Var) : Γ v.id = v.sort → E.evalSort v.sort = none → Pushable E sig Γ (.var v) v.sort
  | fn {f g args sorts out} : E.evaluated f = some g → sig f = some (sorts, out) → args.length = sorts.length →
      (∀ p ∈ args.zip sorts, Pushable E sig Γ p.1 p.2) → Pushable E sig Γ (.app f args) out
  | stop {f args out} : E.evaluated f = none → (∀ q b fr c, E.kind f ≠ .taq q b fr c) →
      WS sig Γ (.app f args) out → Pushable E sig Γ (.app f args) out

/-- SPECIFICATION. Formulas whose evaluations can be pushed down. -/
inductive PushableF (E : Cfg F) (sig : Sig F) : (Nat → Srt) → Fm F → Prop
  | var {Γ} (v : Var) : PushableF E sig Γ (.var v)
  | ev {Γ f s o a} : E.kind f = .evaluate → sig f = some ([s], o) → Pushable E sig Γ a s → PushableF E sig Γ (.app f [a])
  | app {Γ f args} : E.kind f ≠ .evaluate → (∀ a ∈ args, PushableF E sig Γ a) → PushableF E sig Γ (.app f args)
  | quant {Γ q vs b} : PushableF E sig (upd Γ vs) b → PushableF E sig Γ (.quant q vs b)

/-! ## Proofs -/

section
variable {E : Cfg F} {M : Str F D} {sig : Sig F} {Γ : Nat → Srt}

theorem zip_dom {e : Fm F → D} : ∀ {args : List (Fm F)} {sorts : List Srt}, args.length = sorts.length →
    (∀ p ∈ args.zip sorts, M.dom p.2 (e p.1)) → List.Forall₂ M.dom sorts (args.map e) := by
  intro args
  induction args with
  | nil => intro sorts hl _; cases sorts with
    | nil => exact .nil
    | cons s sorts => simp at hl
  | cons a args ih =>
    intro sorts hl h
    cases sorts with
    | nil => simp at hl
    | cons s sorts => exact .cons (h (a, s) (by simp)) (ih (by simpa using hl) (fun p hp => h p (by simp [hp])))

theorem WS.sound (hT : Typing E M sig) {t : Fm F} {s : Srt} (h : WS sig Γ t s) :
    E.L.sortOf t = some s ∧ ∀ ρ, Resp M Γ ρ → M.dom s (Fm.eval M ρ t) := by
  induction h with
  | var v hv => exact ⟨rfl, fun ρ hρ => by simp only [Fm.eval]; rw [← hv]; exact hρ _⟩
  | @app f args sorts out hf hlen _ ih =>
    refine ⟨sortOf_app (hT.out f sorts out hf) _, fun ρ hρ => ?_⟩
    simp only [Fm.eval, evals_eq]
    refine hT.fn f sorts out hf _ (zip_dom hlen (fun p hp => (ih p hp).2 ρ hρ))

theorem Pushable.ws {t : Fm F} {s : Srt} (h : Pushable E sig Γ t s) : WS sig Γ t s := by
  induction h with
  | var v hv _ => exact .var v hv
  | fn _ hs hl _ ih => exact .app hs hl ih
  | stop _ _ h => exact h

theorem mapO_zip {f : Fm F → Option (Fm F)} {g : Srt → D → D} {e : Fm F → D} : ∀ {args : List (Fm F)} {sorts : List Srt}
    (_ : args.length = sorts.length)
    (_ : ∀ p ∈ args.zip sorts, ∃ t', f p.1 = some t' ∧ Fm.eval M ρ t' = g p.2 (e p.1)),
    ∃ ts, mapO f args = some ts ∧ ts.map (Fm.eval M ρ) = List.zipWith g sorts (args.map e) := by
  intro args
  induction args with
  | nil => intro sorts _ _; exact ⟨[], rfl, by simp⟩
  | cons a args ih =>
    intro sorts hl h
    cases sorts with
    | nil => simp at hl
    | cons s sorts =>
      obtain ⟨t', h1, h2⟩ := h (a, s) (by simp)
      obtain ⟨ts, h3, h4⟩ := ih (by simpa using hl) (fun p hp => h p (by simp [hp]))
      exact ⟨t' :: ts, by simp [mapO, h1, h3], by simp [h2, h4]⟩

theorem mapO_unique {α β : Type} {f : α → Option β} {l : List α} {r r' : List β} (h : mapO f l = some r) (h' : mapO f l = some r') :
    r = r' := by rw [h] at h'; exact Option.some.inj h'

/-- Pushing evaluation down a term gives its evaluation. -/
theorem after_correct (hT : Typing E M sig) (hh : Homo E M) : ∀ (n : Nat) {t : Fm F} {s : Srt}, Pushable E sig Γ t s →
    t.size ≤ n → (∃ t', E.after n t = some t') ∧ ∀ t', E.after n t = some t' → ∀ ρ, Resp M Γ ρ →
      Fm.eval M ρ t' = E.val M s (Fm.eval M ρ t) := by
  intro n
  induction n with
  | zero => intro t s _ hn; have := size_pos t; omega
  | succ n ih =>
    intro t s h hn
    cases h with
    | var v hv he =>
      simp only [Cfg.after, he]
      refine ⟨eval_some (sortOf_var E.L v), fun t' ht ρ _ => eval_val M (sortOf_var E.L v) ht ρ⟩
    | @fn f g args sorts out hg hs hl hp =>
      have hsize : ∀ a ∈ args, a.size ≤ n := fun a ha => by
        have := size_lt_of_mem ha
        simp only [size] at hn
        omega
      have hmem : ∀ p ∈ args.zip sorts, p.1 ∈ args := fun p hp => (List.of_mem_zip hp).1
      have hsome : ∃ ts, mapO (E.after n) args = some ts := mapO_some (fun a ha => by
        obtain ⟨i, hi⟩ := List.getElem?_of_mem ha
        obtain ⟨hi', -⟩ := List.getElem?_eq_some_iff.1 hi
        have hz : (args.zip sorts)[i]? = some (a, sorts[i]'(by omega)) := by
          rw [List.getElem?_zip_eq_some]
          exact ⟨hi, by simp⟩
        exact (ih (hp _ (List.mem_of_getElem? hz)) (hsize a ha)).1)
      obtain ⟨ts, hts⟩ := hsome
      have key : ∀ ρ, Resp M Γ ρ → ts.map (Fm.eval M ρ) = List.zipWith (E.val M) sorts (args.map (Fm.eval M ρ)) := by
        intro ρ hρ
        obtain ⟨ts', h1, h2⟩ := mapO_zip (M := M) (ρ := ρ) (f := E.after n) (g := E.val M) (e := Fm.eval M ρ) hl
          (fun p hp' => by
            obtain ⟨⟨t', ht'⟩, h2⟩ := ih (hp p hp') (hsize _ (hmem p hp'))
            exact ⟨t', ht', h2 t' ht' ρ hρ⟩)
        rw [mapO_unique hts h1]
        exact h2
      simp only [Cfg.after, hg, hts, Option.map_some]
      refine ⟨⟨_, rfl⟩, fun t' ht ρ hρ => ?_⟩
      cases ht
      have hws : WS sig Γ (.app f args) s := .app hs hl (fun p hp' => (hp p hp').ws)
      have hdom : List.Forall₂ M.dom sorts (args.map (Fm.eval M ρ)) :=
        zip_dom hl (fun p hp' => ((hp p hp').ws.sound hT).2 ρ hρ)
      simp only [Fm.eval, evals_eq, key ρ hρ]
      simp only [Cfg.evaluated] at hg
      split at hg
      next a o ev hk =>
        have := hs.symm.trans (hT.base f a o ev hk)
        cases this; cases hg
        exact (hh.base f _ _ _ hk _ hdom).symm
      next a ev hk =>
        have := hs.symm.trans (hT.conn f a ev hk)
        cases this; cases hg
        exact (hh.conn f _ _ hk _ hdom).symm
      next hk =>
        have := hs.symm.trans (hT.eqTa f hk)
        cases this; cases hg
        generalize args.map (Fm.eval M ρ) = ds at hdom ⊢
        rcases hdom with - | ⟨ha, - | ⟨hb, - | -⟩⟩
        exact (hh.eqTa f hk _ _ ha hb).symm
      next hk =>
        have := hs.symm.trans (hT.notTa f hk)
        cases this; cases hg
        generalize args.map (Fm.eval M ρ) = ds at hdom ⊢
        rcases hdom with - | ⟨ha, - | -⟩
        exact (hh.notTa f hk _ ha).symm
      · cases hg
    | @stop f args out hg hq hws =>
      have hso := (hws.sound hT).1
      have : E.after (n + 1) (.app f args) = E.eval (.app f args) := by
        simp only [Cfg.after, hg]
      rw [this]
      exact ⟨eval_some hso, fun t' ht ρ _ => eval_val M hso ht ρ⟩

theorem Resp.set {ρ : Valn D} (h : Resp M Γ ρ) (v : Var) {d : D} (hd : M.dom v.sort d) :
    Resp M (fun i => if i = v.id then v.sort else Γ i) (ρ.set v.id d) := by
  intro i
  by_cases hi : i = v.id
  · subst hi; simpa [Valn.set] using hd
  · simpa [Valn.set, hi] using h i

theorem quantVal_resp (q : QKind) {P Q : Valn D → Prop} : ∀ (vs : List Var) {Γ : Nat → Srt} {ρ : Valn D}, Resp M Γ ρ →
    (∀ τ, Resp M (upd Γ vs) τ → (P τ ↔ Q τ)) → (quantVal M q vs P ρ ↔ quantVal M q vs Q ρ) := by
  intro vs
  induction vs with
  | nil => intro Γ ρ h hPQ; exact hPQ ρ h
  | cons v vs ih =>
    intro Γ ρ h hPQ
    cases q with
    | all => exact forall_congr' (fun d => imp_congr_right (fun hd => ih (h.set v hd) hPQ))
    | ex => exact exists_congr (fun d => and_congr_right (fun hd => ih (h.set v hd) hPQ))

theorem befores_some {n : Nat} : ∀ {l : List (Fm F)}, (∀ a ∈ l, ∃ a', E.before n a = some a') → ∃ l', E.befores n l = some l' := by
  intro l
  induction l with
  | nil => intro _; exact ⟨[], rfl⟩
  | cons a l ih =>
    intro h
    obtain ⟨a', ha⟩ := h a List.mem_cons_self
    obtain ⟨l', hl⟩ := ih (fun x hx => h x (List.mem_cons_of_mem _ hx))
    exact ⟨a' :: l', by simp [Cfg.befores, ha, hl]⟩

/-- C33, for formulas in which the evaluated terms have no variable of a sort that can be evaluated and no
quantifier symbol above the level where propagation stops: propagation does not panic and keeps the meaning, in
every interpretation in which evaluation is a homomorphism, for all values of the variables. Missing: the other
formulas, on which it changes the meaning or panics (`C33_variable_counterexample`,
`C33_quantifier_counterexample`, `C33_quantifier_panic`). -/
theorem C33_propagate_partial (hT : Typing E M sig) (hh : Homo E M) {φ : Fm F} (h : PushableF E sig Γ φ) (n : Nat)
    (hn : φ.size ≤ n) :
    ∃ φ', E.propagate n φ = some φ' ∧ ∀ ρ, Resp M Γ ρ → Fm.eval M ρ φ' = Fm.eval M ρ φ := by
  simp only [Cfg.propagate]
  induction h with
  | var v => exact ⟨_, rfl, fun _ _ => rfl⟩
  | @ev Γ f s o a hk hs ha =>
    have hie : E.isEvaluate f = true := by simp [Cfg.isEvaluate, hk]
    simp only [Cfg.before, hie, if_true]
    obtain ⟨⟨t', ht⟩, h2⟩ := after_correct hT hh n ha (by simp only [size, sizes] at hn; omega)
    refine ⟨t', ht, fun ρ hρ => ?_⟩
    obtain ⟨s', o', h3, h4⟩ := hT.ev f hk
    rw [hs] at h3
    cases h3
    rw [h2 t' ht ρ hρ]
    simp only [Fm.eval, evals, Cfg.val, h4]
  | @app Γ f args hk _ ih =>
    have hie : E.isEvaluate f = false := by
      simp only [Cfg.isEvaluate]
    simp only [Cfg.before, hie, Bool.false_eq_true, if_false]
    obtain ⟨l', hl⟩ := befores_some (E := E) (n := n) (l := args) (fun a ha => by
      obtain ⟨a', h1, -⟩ := ih a ha (by have := size_lt_of_mem ha; simp only [size] at hn; omega)
      exact ⟨a', h1⟩)
    exact ⟨_, by rw [hl]; rfl, fun _ _ => rfl⟩
  | @quant Γ q vs b _ ih =>
    obtain ⟨b', h1, h2⟩ := ih (by simp only [size] at hn; omega)
    refine ⟨.quant q vs b', by simp [Cfg.before, h1], fun ρ hρ => ?_⟩
    simp only [Fm.eval]
    congr 1
    exact propext (quantVal_resp q vs hρ (fun τ hτ => by rw [h2 τ hτ]))

/-- C33: nothing changes below a function symbol that is not an evaluation. -/
theorem C33_under_function {n : Nat} {f : F} {args : List (Fm F)} (hk : E.kind f ≠ .evaluate) {φ : Fm F}
    (h : E.propagate n (.app f args) = some φ) : φ = .app f args := by
  have hie : E.isEvaluate f = false := by
    simp only [Cfg.isEvaluate]
  simp only [Cfg.propagate, Cfg.before, hie, Bool.false_eq_true, if_false, Option.map_eq_some_iff] at h
  obtain ⟨_, -, rfl⟩ := h
  rfl

/-- C33 fails: propagation panics on the evaluation of a `forall` or `exists` symbol with a number of bound
variables different from its number of parameters. -/
theorem C33_quantifier_panic {n : Nat} {e f : F} {q : QKind} {bound free : List Var} {content : Fm F} {args : List (Fm F)}
    (he : E.kind e = .evaluate) (hk : E.kind f = .taq q bound free content) (hl : bound.length ≠ args.length) :
    E.propagate n (.app e [.app f args]) = none := by
  have hie : E.isEvaluate e = true := by simp [Cfg.isEvaluate, he]
  simp only [Cfg.propagate, Cfg.before, hie, if_true]
  cases n with
  | zero => rfl
  | succ n =>
    simp only [Cfg.after, Cfg.evaluated, hk]
    have := (C03_malformed_rejected (bound.map Var.id) args).2
    simp only [List.length_map] at this
    simp [FrozenSubst.newFrom, hl]

end
end Ev
end CV
