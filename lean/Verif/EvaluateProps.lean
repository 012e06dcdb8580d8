import Verif.Evaluate
import Verif.ExistProps
import Mathlib.Data.List.Forall2
import Mathlib.Tactic.Tauto
set_option linter.unusedSimpArgs false
/-
C32, C60: what the axioms about evaluation say. C33: propagating evaluation keeps the meaning.
-/
namespace CV
namespace Ev
open Dep SmtM Fm
variable {F D : Type}

/-! ## Specification -/

/-- SPECIFICATION. The value of evaluating a value of some sort: the evaluation symbol of the sort is applied
to it, and values of the other sorts are their own evaluation. -/
def Cfg.val (E : Cfg F) (M : Str F D) (s : Srt) (d : D) : D :=
  match E.evs.lookup s with
  | none => d
  | some e => M.fn e [d]

/-- SPECIFICATION. The structure reads the logical symbols as usual. -/
structure Logical (E : Cfg F) (M : Str F D) : Prop where
  sem : Sem E.L M
  imp : ∀ a b, M.truth (M.fn E.L.imp [a, b]) ↔ (M.truth a → M.truth b)
  not : ∀ a, M.truth (M.fn E.not [a]) ↔ ¬ M.truth a
  ite_true : ∀ c a b, M.truth c → M.fn E.ite [c, a, b] = a
  ite_false : ∀ c a b, ¬ M.truth c → M.fn E.ite [c, a, b] = b

/-- SPECIFICATION. Evaluation is a homomorphism: it sends the application of a function of the term algebra
to the application of its evaluated function to the evaluated arguments, a connective to the connective, the
conditional to the conditional, a quantifier to the quantifier over the evaluation of its body, and `find …
such that` to the evaluation of the first branch for values that satisfy the condition, or of the second
branch when there are none. -/
structure Homo (E : Cfg F) (M : Str F D) : Prop where
  base : ∀ f args out ev, E.kind f = .base args out ev → ∀ ds, List.Forall₂ M.dom args ds →
    E.val M out (M.fn f ds) = M.fn ev (List.zipWith (E.val M) args ds)
  conn : ∀ f args ev, E.kind f = .conn args ev → ∀ ds, List.Forall₂ M.dom args ds →
    E.val M .condition (M.fn f ds) = M.fn ev (List.zipWith (E.val M) args ds)
  eqTa : ∀ f, E.kind f = .eqTa → ∀ a b, M.dom .message a → M.dom .message b →
    E.val M .condition (M.fn f [a, b]) = M.fn E.L.eq [E.val M .message a, E.val M .message b]
  notTa : ∀ f, E.kind f = .notTa → ∀ a, M.dom .condition a →
    E.val M .condition (M.fn f [a]) = M.fn E.not [E.val M .condition a]
  ite : ∀ f, E.kind f = .ite → ∀ c a b, M.dom .condition c → M.dom .message a → M.dom .message b →
    (M.truth (E.val M .condition c) → E.val M .message (M.fn f [c, a, b]) = E.val M .message a) ∧
    (¬ M.truth (E.val M .condition c) → E.val M .message (M.fn f [c, a, b]) = E.val M .message b)
  taq : ∀ f q bound free content, E.kind f = .taq q bound free content → ∀ σ, InDom M free σ →
    (M.truth (E.val M .condition (M.fn f (free.map fun v => σ v.id))) ↔
      quantVal M q bound (fun τ => M.truth (E.val M .condition (Fm.eval M τ content))) σ)
  fst : ∀ f bound free cond succ fail, E.kind f = .fst bound free cond succ fail → ∀ σ, InDom M free σ →
    (∃ τ, (∀ i, i ∉ bound.map Var.id → τ i = σ i) ∧ InDom M bound τ ∧
      M.truth (E.val M .condition (Fm.eval M τ cond)) ∧
      E.val M .message (M.fn f (free.map fun v => σ v.id)) = E.val M .message (Fm.eval M τ succ)) ∨
    ((∀ τ, (∀ i, i ∉ bound.map Var.id → τ i = σ i) → InDom M bound τ →
      ¬ M.truth (E.val M .condition (Fm.eval M τ cond))) ∧
      E.val M .message (M.fn f (free.map fun v => σ v.id)) = E.val M .message (Fm.eval M σ fail))

/-- SPECIFICATION. The symbol occurs in the term. -/
inductive HasSym (g : F) : Fm F → Prop
  | here {args} : HasSym g (.app g args)
  | arg {f args a} : a ∈ args → HasSym g a → HasSym g (.app f args)
  | body {q vs b} : HasSym g b → HasSym g (.quant q vs b)

/-- SPECIFICATION. What the rest of the code guarantees about the symbols of a problem: the output sort of a
symbol is the one of its signature, the body of a quantifier is a condition, the parameters of a quantifier are
different variables, the branches of a `find … such that` are messages over its variables without quantifier,
its second branch does not use the variables it binds, and new symbols are new. -/
structure Cfg.OK (E : Cfg F) : Prop where
  base : ∀ f args out ev, E.kind f = .base args out ev → E.L.out f = some out
  conn : ∀ f args ev, E.kind f = .conn args ev → E.L.out f = some .condition
  eqTa : ∀ f, E.kind f = .eqTa → E.L.out f = some .condition
  notTa : ∀ f, E.kind f = .notTa → E.L.out f = some .condition
  ite : ∀ f, E.kind f = .ite → E.L.out f = some .message
  taq : ∀ f q bound free content, E.kind f = .taq q bound free content →
    E.L.out f = some .condition ∧ (free.map Var.id).Nodup ∧ E.L.sortOf content = some .condition ∧
    ∀ g i, ¬ HasSym (E.skolem g i) content
  fst : ∀ f bound free cond succ fail, E.kind f = .fst bound free cond succ fail →
    E.L.out f = some .message ∧ ((bound ++ free).map Var.id).Nodup ∧
    E.L.sortOf cond = some .condition ∧ E.L.sortOf succ = some .message ∧ E.L.sortOf fail = some .message ∧
    (∀ t ∈ [cond, succ, fail], NoQuant t ∧ (∀ v ∈ t.vars, v ∈ bound ++ free) ∧
      ∀ g i, ¬ HasSym (E.skolem g i) t) ∧
    (∀ v ∈ fail.vars, v ∈ free) ∧ ∀ i v, bound[i]? = some v → E.L.out (E.skolem f i) = some v.sort
  skolem_inj : ∀ f g i j, E.skolem f i = E.skolem g j → f = g ∧ i = j
  skolem_logic : ∀ f i, E.skolem f i ≠ E.L.eq ∧ E.skolem f i ≠ E.L.and ∧ E.skolem f i ≠ E.L.or ∧
    E.skolem f i ≠ E.L.imp ∧ E.skolem f i ≠ E.L.tru ∧ E.skolem f i ≠ E.not ∧ E.skolem f i ≠ E.ite
  skolem_ev : ∀ f i s e, E.evs.lookup s = some e → E.skolem f i ≠ e
  skolem_kind : ∀ f i, E.kind (E.skolem f i) = .other
  skolem_eval : ∀ f i g g', E.evaluated g = some g' → E.skolem f i ≠ g'

/-- SPECIFICATION. What an axiom says. A rewrite rule says that both sides are equal. -/
def AxTrue (M : Str F D) (ρ : Valn D) : Ax F → Prop
  | .comment _ => True
  | .base φ => M.truth (Fm.eval M ρ φ)
  | .ground _ φ => M.truth (Fm.eval M ρ φ)
  | .theory φ => M.truth (Fm.eval M ρ φ)
  | .query φ => ¬ M.truth (Fm.eval M ρ φ)
  | .rewrite _ vs pre post => quantVal M .all vs (fun τ => Fm.eval M τ pre = Fm.eval M τ post) ρ

/-! ## Lemmas -/

theorem quantVal_all_of (M : Str F D) (P : Valn D → Prop) : ∀ (vs : List Var) (ρ : Valn D), (vs.map Var.id).Nodup →
    (∀ τ, (∀ i, i ∉ vs.map Var.id → τ i = ρ i) → InDom M vs τ → P τ) → quantVal M .all vs P ρ := by
  intro vs
  induction vs with
  | nil => intro ρ _ h; exact h ρ (fun _ _ => rfl) (fun _ h' => (nomatch h'))
  | cons v vs ih =>
    intro ρ hnd h d hd
    simp only [List.map_cons, List.nodup_cons] at hnd
    refine ih _ hnd.2 (fun τ h1 h2 => h τ ?_ ?_)
    · intro i hi
      simp only [List.map_cons, List.mem_cons, not_or] at hi
      rw [h1 i hi.2, Valn.set_ne _ _ hi.1]
    · intro w hw
      rcases List.mem_cons.1 hw with rfl | hw
      · rw [h1 _ hnd.1, Valn.set_self]; exact hd
      · exact h2 w hw

theorem quantVal_all_elim (M : Str F D) (P : Valn D → Prop) : ∀ (vs : List Var) (ρ τ : Valn D),
    (∀ i, i ∉ vs.map Var.id → τ i = ρ i) → InDom M vs τ → quantVal M .all vs P ρ → P τ := by
  intro vs
  induction vs with
  | nil => intro ρ τ h1 _ h; rw [show τ = ρ from funext fun i => h1 i (by simp)]; exact h
  | cons v vs ih =>
    intro ρ τ h1 h2 h
    refine ih _ τ ?_ (fun w hw => h2 w (List.mem_cons_of_mem _ hw)) (h (τ v.id) (h2 v List.mem_cons_self))
    intro i hi
    by_cases hv : i = v.id
    · subst hv; rw [Valn.set_self]
    · rw [Valn.set_ne _ _ hv]; exact h1 i (by simp [hv, hi])

theorem quantVal_all_iff (M : Str F D) (P : Valn D → Prop) (vs : List Var) (ρ : Valn D) (h : (vs.map Var.id).Nodup) :
    quantVal M .all vs P ρ ↔ ∀ τ, (∀ i, i ∉ vs.map Var.id → τ i = ρ i) → InDom M vs τ → P τ :=
  ⟨fun H τ h1 h2 => quantVal_all_elim M P vs ρ τ h1 h2 H, quantVal_all_of M P vs ρ h⟩

theorem truth_mkForall (M : Str F D) (ρ : Valn D) (vs : List Var) (b : Fm F) :
    M.truth (Fm.eval M ρ (mkForall vs b)) ↔ quantVal M .all vs (fun τ => M.truth (Fm.eval M τ b)) ρ := by
  cases vs with
  | nil => simp [mkForall, quantVal]
  | cons v vs => simp only [mkForall, List.isEmpty_cons, Bool.false_eq_true, if_false, Fm.eval, M.truth_ofProp]

theorem truth_mkQuant (M : Str F D) (ρ : Valn D) (q : QKind) (vs : List Var) (b : Fm F) :
    M.truth (Fm.eval M ρ (mkQuant q vs b)) ↔ quantVal M q vs (fun τ => M.truth (Fm.eval M τ b)) ρ := by
  cases q
  · exact truth_mkForall M ρ vs b
  · exact truth_mkExists M ρ vs b

theorem mapO_mem {α β : Type} {f : α → Option β} : ∀ {l : List α} {r : List β}, mapO f l = some r → ∀ b ∈ r, ∃ a ∈ l, f a = some b := by
  intro l
  induction l with
  | nil => intro r h b hb; simp only [mapO, Option.some.injEq] at h; subst h; cases hb
  | cons a l ih =>
    intro r h b hb
    simp only [mapO, Option.bind_eq_some_iff, Option.map_eq_some_iff] at h
    obtain ⟨x, hx, r', hr', rfl⟩ := h
    rcases List.mem_cons.1 hb with rfl | hb
    · exact ⟨a, List.mem_cons_self, hx⟩
    · obtain ⟨a', ha', h'⟩ := ih hr' b hb
      exact ⟨a', List.mem_cons_of_mem _ ha', h'⟩

theorem mapO_mem' {α β : Type} {f : α → Option β} : ∀ {l : List α} {r : List β}, mapO f l = some r → ∀ a ∈ l, ∃ b ∈ r, f a = some b := by
  intro l
  induction l with
  | nil => intro r h b hb; cases hb
  | cons a l ih =>
    intro r h b hb
    simp only [mapO, Option.bind_eq_some_iff, Option.map_eq_some_iff] at h
    obtain ⟨x, hx, r', hr', rfl⟩ := h
    rcases List.mem_cons.1 hb with rfl | hb
    · exact ⟨x, List.mem_cons_self, hx⟩
    · obtain ⟨a', ha', h'⟩ := ih hr' b hb
      exact ⟨a', List.mem_cons_of_mem _ ha', h'⟩

theorem mapO_some {α β : Type} {f : α → Option β} : ∀ {l : List α}, (∀ a ∈ l, ∃ b, f a = some b) → ∃ r, mapO f l = some r := by
  intro l
  induction l with
  | nil => intro _; exact ⟨[], rfl⟩
  | cons a l ih =>
    intro h
    obtain ⟨b, hb⟩ := h a List.mem_cons_self
    obtain ⟨r, hr⟩ := ih (fun x hx => h x (List.mem_cons_of_mem _ hx))
    exact ⟨b :: r, by simp [mapO, hb, hr]⟩

theorem flatO_mem {α β : Type} {f : α → Option (List β)} {l : List α} {r : List β} (h : flatO f l = some r) {b : β}
    (hb : b ∈ r) : ∃ a ∈ l, ∃ c, f a = some c ∧ b ∈ c := by
  simp only [flatO, Option.map_eq_some_iff] at h
  obtain ⟨ls, h1, rfl⟩ := h
  obtain ⟨c, hc, hbc⟩ := List.mem_flatten.1 hb
  obtain ⟨a, ha, h2⟩ := mapO_mem h1 c hc
  exact ⟨a, ha, c, h2, hbc⟩

theorem flatO_mem' {α β : Type} {f : α → Option (List β)} {l : List α} {r : List β} (h : flatO f l = some r) {a : α}
    (ha : a ∈ l) : ∃ c, f a = some c ∧ ∀ b ∈ c, b ∈ r := by
  simp only [flatO, Option.map_eq_some_iff] at h
  obtain ⟨ls, h1, rfl⟩ := h
  obtain ⟨c, hc, h2⟩ := mapO_mem' h1 a ha
  exact ⟨c, h2, fun b hb => List.mem_flatten.2 ⟨c, hc, hb⟩⟩

theorem flatO_some {α β : Type} {f : α → Option (List β)} {l : List α} (h : ∀ a ∈ l, ∃ b, f a = some b) :
    ∃ r, flatO f l = some r := by
  obtain ⟨r, hr⟩ := mapO_some h
  exact ⟨r.flatten, by simp [flatO, hr]⟩

/-- What an evaluated term is worth. -/
theorem eval_val {E : Cfg F} (M : Str F D) {t t' : Fm F} {s : Srt} (hs : E.L.sortOf t = some s) (h : E.eval t = some t')
    (ρ : Valn D) : Fm.eval M ρ t' = E.val M s (Fm.eval M ρ t) := by
  simp only [Cfg.eval, hs, Option.map_some, Option.some.injEq] at h
  subst h
  simp only [Cfg.val]
  cases E.evs.lookup s with
  | none => rfl
  | some e => simp [Fm.eval, evals]

theorem eval_some {E : Cfg F} {t : Fm F} {s : Srt} (hs : E.L.sortOf t = some s) : ∃ t', E.eval t = some t' := by
  simp [Cfg.eval, hs]

theorem sortOf_app {L : Lang F} {f : F} {s : Srt} (h : L.out f = some s) (args : List (Fm F)) :
    L.sortOf (.app f args) = some s := by simp [Lang.sortOf, h]

theorem sortOf_var (L : Lang F) (v : Var) : L.sortOf (.var v : Fm F) = some v.sort := rfl

/-- Evaluating a list of variables. -/
theorem mapO_vars {E : Cfg F} (M : Str F D) (ρ : Valn D) : ∀ (vs : List Var) (xs : List (Fm F)),
    mapO E.eval (vs.map .var) = some xs →
    xs.map (Fm.eval M ρ) = List.zipWith (E.val M) (vs.map Var.sort) (vs.map fun v => ρ v.id) := by
  intro vs
  induction vs with
  | nil => intro xs h; simp only [List.map_nil, mapO, Option.some.injEq] at h; subst h; rfl
  | cons v vs ih =>
    intro xs h
    simp only [List.map_cons, mapO, Option.bind_eq_some_iff, Option.map_eq_some_iff] at h
    obtain ⟨x, hx, r, hr, rfl⟩ := h
    simp only [List.map_cons, List.zipWith_cons_cons, ih r hr, eval_val M (sortOf_var E.L v) hx ρ]
    rfl

theorem mapO_vars_some (E : Cfg F) (vs : List Var) : ∃ xs, mapO E.eval (vs.map .var) = some xs :=
  mapO_some (fun a ha => by obtain ⟨v, -, rfl⟩ := List.mem_map.1 ha; exact eval_some (sortOf_var E.L v))

theorem sortsToVariables_sorts (n : Nat) (l : List Srt) : (sortsToVariables n l).map Var.sort = l := by
  simp only [sortsToVariables, List.map_map]
  have : ((Var.sort ∘ fun p : Srt × Nat => (⟨p.2 + n, p.1⟩ : Var))) = Prod.fst := rfl
  rw [this]
  exact List.zipIdx_map_fst 0 l

theorem sortsToVariables_ids (n : Nat) (l : List Srt) : (sortsToVariables n l).map Var.id = (List.range l.length).map (· + n) := by
  simp only [sortsToVariables, List.map_map]
  have : ((Var.id ∘ fun p : Srt × Nat => (⟨p.2 + n, p.1⟩ : Var))) = (· + n) ∘ Prod.snd := rfl
  rw [this, ← List.map_map, List.zipIdx_map_snd, List.range_eq_range']

theorem sortsToVariables_nodup (n : Nat) (l : List Srt) : ((sortsToVariables n l).map Var.id).Nodup := by
  rw [sortsToVariables_ids]
  exact List.Nodup.map (fun a b h => by simpa using h) List.nodup_range

theorem inDom_forall₂ {M : Str F D} : ∀ {vs : List Var} {σ : Valn D}, InDom M vs σ →
    List.Forall₂ M.dom (vs.map Var.sort) (vs.map fun v => σ v.id) := by
  intro vs
  induction vs with
  | nil => intro _ _; exact .nil
  | cons v vs ih =>
    intro σ h
    exact .cons (h v List.mem_cons_self) (ih (fun w hw => h w (List.mem_cons_of_mem _ hw)))

theorem inDom_sorts {M : Str F D} {n : Nat} {l : List Srt} {σ : Valn D} (h : InDom M (sortsToVariables n l) σ) :
    List.Forall₂ M.dom l ((sortsToVariables n l).map fun v => σ v.id) := by
  have := inDom_forall₂ h
  rwa [sortsToVariables_sorts] at this

theorem evals_vars (M : Str F D) (ρ : Valn D) (vs : List Var) : evals M ρ (vs.map .var) = vs.map fun v => ρ v.id := by
  rw [evals_eq, List.map_map]; rfl

theorem sortOf_apply (L : Lang F) (θ : Subst F) (t : Fm F) :
    (∀ v ∈ t.vars, L.sortOf (θ v) = some v.sort) → L.sortOf (Subst.apply θ t) = L.sortOf t := by
  induction t using Fm.ind with
  | hvar v => intro h; simpa [Subst.apply, Lang.sortOf] using h v (by simp [vars])
  | happ f args ih =>
    intro h
    have h' : ∀ (l : List (Fm F)), (∀ a ∈ l, a ∈ args) → L.sortsOf (Subst.applys θ l) = L.sortsOf l := by
      intro l
      induction l with
      | nil => intro _; rfl
      | cons a l ihl =>
        intro hl
        simp only [Subst.applys, Lang.sortsOf]
        rw [ih a (hl a List.mem_cons_self) (fun v hv => h v (by
          simp only [vars, varss_eq, List.mem_flatMap]; exact ⟨a, hl a List.mem_cons_self, hv⟩)),
          ihl (fun b hb => hl b (List.mem_cons_of_mem _ hb))]
    simp only [Subst.apply, Lang.sortOf]
    rw [h' args (fun _ h => h)]
  | hquant q vs b ih => intro _; rfl

/-- Two structures with the same carriers and the same meaning of the symbols of a term give it the same value. -/
theorem eval_sym {M M' : Str F D} (ht : M'.truth = M.truth) (ho : M'.ofProp = M.ofProp) (hd : M'.dom = M.dom) (t : Fm F) :
    (∀ g, HasSym g t → M'.fn g = M.fn g) → ∀ ρ, Fm.eval M' ρ t = Fm.eval M ρ t := by
  induction t using Fm.ind with
  | hvar v => intro _ _; rfl
  | happ f args ih =>
    intro h ρ
    simp only [Fm.eval, evals_eq, h f .here]
    congr 1
    exact List.map_congr_left (fun a ha => ih a ha (fun g hg => h g (.arg ha hg)) ρ)
  | hquant q vs b ih =>
    intro h ρ
    simp only [Fm.eval, ho]
    congr 1
    have key : ∀ (ws : List Var) (σ : Valn D), quantVal M' q ws (fun ρ' => M'.truth (Fm.eval M' ρ' b)) σ =
        quantVal M q ws (fun ρ' => M.truth (Fm.eval M ρ' b)) σ := by
      intro ws
      induction ws with
      | nil => intro σ; simp only [quantVal, ht, ih (fun g hg => h g (.body hg))]
      | cons w ws ihw => intro σ; cases q <;> simp only [quantVal, hd, ihw]
    exact key vs ρ

theorem quantVal_str {M M' : Str F D} (hd : M'.dom = M.dom) (q : QKind) (P : Valn D → Prop) : ∀ (ws : List Var) (σ : Valn D),
    quantVal M' q ws P σ = quantVal M q ws P σ := by
  intro ws
  induction ws with
  | nil => intro σ; rfl
  | cons w ws ihw => intro σ; cases q <;> simp only [quantVal, hd, ihw]

/-- The skolem symbols of every `find … such that` pick values that satisfy the condition and are those the
term takes, if there are some that satisfy it. -/
def SkolemOK (E : Cfg F) (M : Str F D) : Prop :=
  ∀ f bound free cond succ fail, E.kind f = .fst bound free cond succ fail → ∀ σ κ, InDom M free σ →
    (∀ i, i ∉ bound.map Var.id → κ i = σ i) →
    (∀ i v, bound[i]? = some v → κ v.id = M.fn (E.skolem f i) (free.map fun v => σ v.id)) →
    (M.truth (E.val M .condition (Fm.eval M κ cond)) ∧
      E.val M .message (M.fn f (free.map fun v => σ v.id)) = E.val M .message (Fm.eval M κ succ)) ∨
    ((∀ τ, (∀ i, i ∉ bound.map Var.id → τ i = σ i) → InDom M bound τ →
        ¬ M.truth (E.val M .condition (Fm.eval M τ cond))) ∧
      ¬ M.truth (E.val M .condition (Fm.eval M κ cond)) ∧
      E.val M .message (M.fn f (free.map fun v => σ v.id)) = E.val M .message (Fm.eval M σ fail))

/-- What the substitution of the skolem terms does to a variable. -/
theorem skolemSubst_get (E : Cfg F) (f : F) (bound free : List Var) (hnd : (bound.map Var.id).Nodup) (v : Var) :
    (∀ i : Nat, (bound[i]?).map Var.id = some v.id →
      (E.skolemSubst f bound free).get v = .app (E.skolem f i) (free.map .var)) ∧
    (v.id ∉ bound.map Var.id → (E.skolemSubst f bound free).get v = .var v) := by
  constructor
  · intro i hi
    obtain ⟨w, hw, hwv⟩ := Option.map_eq_some_iff.1 hi
    have hmem : (w.id, (.app (E.skolem f i) (free.map .var) : Fm F)) ∈ E.skolemSubst f bound free :=
      List.mem_map.2 ⟨(w, i), List.mem_zipIdx_iff_getElem?.2 hw, rfl⟩
    simp only [MSubst.get, MSubst.maybeGet]
    cases hf : (E.skolemSubst f bound free).find? (fun p => p.1 == v.id) with
    | none =>
      have := List.find?_eq_none.1 hf _ hmem
      simp [hwv] at this
    | some p =>
      have h1 := List.find?_some hf
      have h2 := List.mem_of_find?_eq_some hf
      obtain ⟨⟨u, j⟩, hu, rfl⟩ := List.mem_map.1 h2
      have hu' := List.mem_zipIdx_iff_getElem?.1 hu
      simp only [beq_iff_eq] at h1
      have hij : j = i := by
        have ha : (bound.map Var.id)[j]? = some v.id := by simp only [List.getElem?_map, hu', Option.map_some, h1]
        have hb : (bound.map Var.id)[i]? = some v.id := by simp only [List.getElem?_map, hw, Option.map_some, hwv]
        obtain ⟨hj, -⟩ := List.getElem?_eq_some_iff.1 ha
        exact (List.getElem?_inj hj hnd).1 (ha.trans hb.symm)
      subst hij
      simp
  · intro h
    simp only [MSubst.get, MSubst.maybeGet]
    cases hf : (E.skolemSubst f bound free).find? (fun p => p.1 == v.id) with
    | none => rfl
    | some p =>
      have h1 := List.find?_some hf
      have h2 := List.mem_of_find?_eq_some hf
      obtain ⟨⟨u, j⟩, hu, rfl⟩ := List.mem_map.1 h2
      simp only [beq_iff_eq] at h1
      exact absurd (List.mem_map.2 ⟨u, List.mem_of_getElem? (List.mem_zipIdx_iff_getElem?.1 hu), h1⟩) h

theorem forall_intro {M : Str F D} {vs : List Var} {b : Fm F} (hnd : (vs.map Var.id).Nodup)
    (h : ∀ τ, InDom M vs τ → M.truth (Fm.eval M τ b)) (ρ : Valn D) : AxTrue M ρ (.base (mkForall vs b)) := by
  simp only [AxTrue, truth_mkForall]
  exact quantVal_all_of M _ vs ρ hnd (fun τ _ hτ => h τ hτ)

theorem forall_elim {M : Str F D} {vs : List Var} {b : Fm F} {ρ : Valn D} (h : AxTrue M ρ (.base (mkForall vs b)))
    (τ : Valn D) (h1 : ∀ i, i ∉ vs.map Var.id → τ i = ρ i) (h2 : InDom M vs τ) : M.truth (Fm.eval M τ b) := by
  simp only [AxTrue, truth_mkForall] at h
  exact quantVal_all_elim M _ vs ρ τ h1 h2 h

/-- Every axiom but the legacy ones holds in a homomorphism whose skolem symbols pick the right values. -/
theorem sound_of_skolem (E : Cfg F) (M : Str F D) (hok : E.OK) (hl : Logical E M) (hh : Homo E M) (hs : SkolemOK E M)
    (hid : E.symbolic = false → ∀ s e, (s, e) ∈ E.evs → ∀ d, M.dom s d → M.fn e [d] = d)
    (hleg : E.legacy = false) (axs : List (Ax F)) (hg : E.generate = some axs) :
    ∀ a ∈ axs, ∀ ρ, AxTrue M ρ a := by
  intro a ha ρ
  have heq := hl.sem.eq
  simp only [Cfg.generate, hleg, Bool.false_eq_true, if_false] at hg
  split at hg
  case isFalse => cases hg
  simp only [Option.bind_eq_some_iff, Option.map_eq_some_iff] at hg
  obtain ⟨first, hf, last, hlast, rfl⟩ := hg
  rcases List.mem_cons.1 ha with rfl | ha
  · trivial
  rcases List.mem_append.1 ha with ha | ha
  · split at hf
    · split at hf
      · simp at hf; subst hf; cases ha
      · simp only [Option.map_some, Option.bind_eq_some_iff, Option.some.injEq, List.append_nil] at hf
        obtain ⟨r, hr, rfl⟩ := hf
        obtain ⟨f, -, c, hc, hac⟩ := flatO_mem hr ha
        simp only [Cfg.rewriteOf] at hc
        split at hc
        next args out ev hk =>
          simp only [Option.map_eq_some_iff] at hc
          obtain ⟨ax, hax, rfl⟩ := hc
          rw [List.mem_singleton] at hac; subst hac
          simp only [Cfg.rewriteAx] at hax
          split at hax
          next k pre post _ hpre hpost =>
            cases hax
            simp only [AxTrue]
            refine quantVal_all_of M _ _ _ (sortsToVariables_nodup _ _) (fun τ _ hτ => ?_)
            rw [eval_val M (sortOf_app (hok.base f args out ev hk) _) hpre τ]
            simp only [Fm.eval, evals_vars]
            rw [hh.base f args out ev hk _ (inDom_sorts hτ), evals_eq, mapO_vars M τ _ _ hpost, sortsToVariables_sorts]
          · cases hax
        · simp only [Option.some.injEq] at hc; subst hc; cases hac
    next hsym =>
      simp only [Option.some.injEq] at hf; subst hf
      simp only [Cfg.idAxioms, List.mem_map] at ha
      obtain ⟨⟨s, e⟩, hp, rfl⟩ := ha
      refine forall_intro (by simp) (fun τ hτ => ?_) ρ
      simp only [Lang.meq, Fm.eval, evals, heq]
      exact hid (by simpa using hsym) s e hp _ (hτ _ List.mem_cons_self)
  · obtain ⟨f, -, c, hc, hac⟩ := flatO_mem hlast ha
    simp only [Cfg.loopAx] at hc
    split at hc
    next args ev hk =>
      simp only [Option.map_eq_some_iff] at hc
      obtain ⟨ax, hax, rfl⟩ := hc
      rw [List.mem_singleton] at hac; subst hac
      simp only [Cfg.connAx] at hax
      split at hax
      next t xs ht hxs =>
        cases hax
        refine forall_intro (sortsToVariables_nodup _ _) (fun τ hτ => ?_) ρ
        simp only [Lang.meq, Fm.eval, evals, heq]
        rw [eval_val M (sortOf_app (hok.conn f args ev hk) _) ht τ]
        simp only [Fm.eval, evals_vars]
        rw [hh.conn f args ev hk _ (inDom_sorts hτ), evals_eq, mapO_vars M τ _ _ hxs, sortsToVariables_sorts]
      · cases hax
    next hk =>
      simp only [Option.map_eq_some_iff] at hc
      obtain ⟨ax, hax, rfl⟩ := hc
      rw [List.mem_singleton] at hac; subst hac
      simp only [Cfg.eqAx] at hax
      split at hax
      next t x y ht hx hy =>
        cases hax
        refine forall_intro (by simp) (fun τ hτ => ?_) ρ
        simp only [Lang.meq, Fm.eval, evals, heq]
        rw [eval_val M (sortOf_app (hok.eqTa f hk) _) ht τ, eval_val M (sortOf_var E.L _) hx τ, eval_val M (sortOf_var E.L _) hy τ]
        simp only [Fm.eval, evals]
        exact hh.eqTa f hk _ _ (hτ ⟨0, .message⟩ (by simp)) (hτ ⟨1, .message⟩ (by simp))
      · cases hax
    next hk =>
      simp only [Option.map_eq_some_iff] at hc
      obtain ⟨ax, hax, rfl⟩ := hc
      rw [List.mem_singleton] at hac; subst hac
      simp only [Cfg.notAx] at hax
      split at hax
      next t x ht hx =>
        cases hax
        refine forall_intro (by simp) (fun τ hτ => ?_) ρ
        simp only [Fm.eval, evals, hl.imp]
        rw [eval_val M (sortOf_app (hok.notTa f hk) _) ht τ, eval_val M (sortOf_var E.L _) hx τ]
        simp only [Fm.eval, evals]
        rw [hh.notTa f hk _ (hτ ⟨0, .condition⟩ (by simp))]
        exact fun h => h
      · cases hax
    next hk =>
      simp only [Option.map_eq_some_iff] at hc
      obtain ⟨ax, hax, rfl⟩ := hc
      rw [List.mem_singleton] at hac; subst hac
      simp only [Cfg.iteAx] at hax
      split at hax
      next t xs ht hxs =>
        cases hax
        refine forall_intro (by simp) (fun τ hτ => ?_) ρ
        simp only [Lang.meq, Fm.eval, evals, heq]
        rw [eval_val M (sortOf_app (hok.ite f hk) _) ht τ, evals_eq, mapO_vars M τ _ _ hxs]
        simp only [Fm.eval, evals, List.map_cons, List.map_nil, List.zipWith_cons_cons, List.zipWith_nil_right]
        have h3 := hh.ite f hk _ _ _ (hτ ⟨0, .condition⟩ (by simp)) (hτ ⟨1, .message⟩ (by simp)) (hτ ⟨2, .message⟩ (by simp))
        by_cases hcnd : M.truth (E.val M .condition (τ 0))
        · rw [hl.ite_true _ _ _ hcnd, h3.1 hcnd]
        · rw [hl.ite_false _ _ _ hcnd, h3.2 hcnd]
      · cases hax
    next q bound free content hk =>
      simp only [Option.map_eq_some_iff] at hc
      obtain ⟨ax, hax, rfl⟩ := hc
      rw [List.mem_singleton] at hac; subst hac
      simp only [Cfg.taqAx] at hax
      obtain ⟨ho, hnd, hsc, -⟩ := hok.taq f q bound free content hk
      split at hax
      next t x ht hx =>
        cases hax
        refine forall_intro hnd (fun τ hτ => ?_) ρ
        simp only [Fm.eval, evals, hl.imp, truth_mkQuant]
        rw [eval_val M (sortOf_app ho _) ht τ]
        simp only [Fm.eval, evals_vars, eval_val M hsc hx]
        exact (hh.taq f q bound free content hk τ hτ).1
      · cases hax
    next bound free cond succ fail hk =>
      simp only [Cfg.fstAx] at hc
      obtain ⟨ho, hnd, hsc, hss, hsf, hcont, hfail, hsko⟩ := hok.fst f bound free cond succ fail hk
      simp only [List.map_append, List.nodup_append] at hnd
      obtain ⟨hndb, hndf, hdisj⟩ := hnd
      have hsort : ∀ t ∈ [cond, succ, fail], E.L.sortOf (Subst.apply (E.skolemSubst f bound free).get t) = E.L.sortOf t := by
        intro t ht
        refine sortOf_apply E.L _ t (fun v hv => ?_)
        rcases List.mem_append.1 ((hcont t ht).2.1 v hv) with h | h
        · obtain ⟨i, hi⟩ := List.getElem?_of_mem h
          rw [(skolemSubst_get E f bound free hndb v).1 i (by rw [hi]; rfl)]
          exact sortOf_app (hsko i v hi) _
        · rw [(skolemSubst_get E f bound free hndb v).2 (fun h' => hdisj _ h' _ (List.mem_map.2 ⟨v, h, rfl⟩) rfl)]
          rfl
      split at hc
      next c c' l r t hc1 hc2 hc3 hc4 hc5 =>
        simp only [Option.some.injEq] at hc; subst hc
        have main : ∀ τ, InDom M free τ → ∃ κ : Valn D, (∀ i, i ∉ bound.map Var.id → κ i = τ i) ∧
            (∀ i v, bound[i]? = some v → κ v.id = M.fn (E.skolem f i) (free.map fun v => τ v.id)) ∧
            ∀ t ∈ [cond, succ, fail], Fm.eval M τ (Subst.apply (E.skolemSubst f bound free).get t) = Fm.eval M κ t := by
          intro τ _
          refine ⟨fun i => Fm.eval M τ ((E.skolemSubst f bound free).get ⟨i, .bool⟩), ?_, ?_, ?_⟩
          · intro i hi
            simp only [(skolemSubst_get E f bound free hndb ⟨i, .bool⟩).2 hi, Fm.eval]
          · intro i v hv
            simp only [(skolemSubst_get E f bound free hndb ⟨v.id, .bool⟩).1 i (by rw [hv]; rfl), Fm.eval, evals_vars]
          · intro t ht
            refine eval_apply M _ t ((hcont t ht).1.noCapture _) _ _ (fun v hv => ?_)
            by_cases h : v.id ∈ bound.map Var.id
            · obtain ⟨w, hw, hwv⟩ := List.mem_map.1 h
              obtain ⟨i, hi⟩ := List.getElem?_of_mem hw
              rw [(skolemSubst_get E f bound free hndb ⟨v.id, .bool⟩).1 i (by rw [hi]; simp [hwv]),
                (skolemSubst_get E f bound free hndb v).1 i (by rw [hi]; simp [hwv])]
            · rw [(skolemSubst_get E f bound free hndb ⟨v.id, .bool⟩).2 h, (skolemSubst_get E f bound free hndb v).2 h]
              rfl
        have hsub : ∀ t ∈ [cond, succ, fail], E.L.sortOf (Subst.apply (E.skolemSubst f bound free).get t) = E.L.sortOf t := hsort
        have hfin : ∀ τ κ : Valn D, (∀ i, i ∉ bound.map Var.id → κ i = τ i) → Fm.eval M κ fail = Fm.eval M τ fail := by
          intro τ κ h
          refine eval_agree_vars M fail κ τ (fun v hv => h _ (fun h' => hdisj _ h' _ (List.mem_map.2 ⟨v, hfail v hv, rfl⟩) rfl))
        simp only [List.mem_cons, List.not_mem_nil, or_false] at hac
        rcases hac with rfl | rfl
        · refine forall_intro hndf (fun τ hτ => ?_) ρ
          obtain ⟨κ, k1, k2, k3⟩ := main τ hτ
          simp only [Fm.eval, evals, hl.sem.or, List.mem_cons, List.not_mem_nil, or_false, exists_eq_or_imp, exists_eq_left,
            truth_mkForall]
          rw [eval_val M ((hsub cond (by simp)).trans hsc) hc2 τ, k3 cond (by simp)]
          rcases hs f bound free cond succ fail hk τ κ hτ k1 k2 with h | h
          · exact Or.inr h.1
          · refine Or.inl (quantVal_all_of M _ _ _ hndb (fun τ' h1 h2 => ?_))
            simp only [Fm.eval, evals, hl.not]
            rw [eval_val M hsc hc1 τ']
            exact h.1 τ' h1 h2
        · refine forall_intro hndf (fun τ hτ => ?_) ρ
          obtain ⟨κ, k1, k2, k3⟩ := main τ hτ
          simp only [Lang.meq, Fm.eval, evals, heq]
          rw [eval_val M ((hsub cond (by simp)).trans hsc) hc2 τ, k3 cond (by simp),
            eval_val M ((hsub succ (by simp)).trans hss) hc3 τ, k3 succ (by simp),
            eval_val M ((hsub fail (by simp)).trans hsf) hc4 τ, k3 fail (by simp),
            eval_val M (sortOf_app ho _) hc5 τ]
          simp only [Fm.eval, evals_vars]
          rcases hs f bound free cond succ fail hk τ κ hτ k1 k2 with h | h
          · rw [hl.ite_true _ _ _ h.1, h.2]
          · rw [hl.ite_false _ _ _ h.2.1, h.2.2, hfin τ κ k1]
      · cases hc
    all_goals (simp only [Option.some.injEq] at hc; subst hc; cases hac)

/-! ## The skolem symbols can be read so that the axioms hold -/

/-- SPECIFICATION. `M'` differs from `M` in the meaning of the symbols of `S` only. -/
structure SameExcept (S : F → Prop) (M M' : Str F D) : Prop where
  fn : ∀ g, ¬ S g → M'.fn g = M.fn g
  truth : M'.truth = M.truth
  ofProp : M'.ofProp = M.ofProp
  dom : M'.dom = M.dom

/-- The new symbols. -/
def IsSkolem (E : Cfg F) (g : F) : Prop := ∃ f i, g = E.skolem f i

open Classical in
/-- Values for the variables bound by a `find … such that`, given the values of its parameters. -/
noncomputable def pick (E : Cfg F) (M : Str F D) (f : F) (bound free : List Var) (cond succ : Fm F) (ds : List D)
    (i : Nat) : D :=
  if h : ∃ τ : Valn D, (∀ v ∈ free, some (τ v.id) = (free.zip ds).lookup v) ∧ InDom M bound τ ∧
      M.truth (E.val M .condition (Fm.eval M τ cond)) ∧ E.val M .message (M.fn f ds) = E.val M .message (Fm.eval M τ succ)
    then h.choose i
  else if h : ∃ d s, (⟨i, s⟩ : Var) ∈ bound ∧ M.dom s d then h.choose
  else M.ofProp True

open Classical in
/-- The structure in which the skolem symbols pick these values. -/
noncomputable def expand (E : Cfg F) (M : Str F D) : Str F D where
  fn g ds :=
    if h : ∃ p : F × Nat, g = E.skolem p.1 p.2 then
      match E.kind h.choose.1 with
      | .fst bound free cond succ _ =>
        match bound[h.choose.2]? with
        | some v => pick E M h.choose.1 bound free cond succ ds v.id
        | none => M.fn g ds
      | _ => M.fn g ds
    else M.fn g ds
  truth := M.truth
  ofProp := M.ofProp
  truth_ofProp := M.truth_ofProp
  dom := M.dom

theorem expand_same (E : Cfg F) (M : Str F D) : SameExcept (IsSkolem E) M (expand E M) := by
  refine ⟨fun g hg => ?_, rfl, rfl, rfl⟩
  funext ds
  have : ¬ ∃ p : F × Nat, g = E.skolem p.1 p.2 := fun ⟨p, h⟩ => hg ⟨p.1, p.2, h⟩
  simp [expand, this]

theorem expand_skolem {E : Cfg F} (M : Str F D) (hok : E.OK) {f : F} {bound free : List Var} {cond succ fail : Fm F}
    (hk : E.kind f = .fst bound free cond succ fail) {i : Nat} {v : Var} (hv : bound[i]? = some v) (ds : List D) :
    (expand E M).fn (E.skolem f i) ds = pick E M f bound free cond succ ds v.id := by
  have h : ∃ p : F × Nat, E.skolem f i = E.skolem p.1 p.2 := ⟨(f, i), rfl⟩
  have hc := hok.skolem_inj _ _ _ _ h.choose_spec
  have h1 : h.choose.1 = f := hc.1.symm
  have h2 : h.choose.2 = i := hc.2.symm
  simp only [expand, h, dif_pos]
  rw [h1, h2, hk]
  simp only [hv]

theorem val_same {E : Cfg F} (hok : E.OK) {M M' : Str F D} (hs : SameExcept (IsSkolem E) M M') (s : Srt) (d : D) :
    E.val M' s d = E.val M s d := by
  simp only [Cfg.val]
  cases h : E.evs.lookup s with
  | none => rfl
  | some e => simp only []; rw [hs.fn e (fun ⟨f, i, he⟩ => hok.skolem_ev f i s e h he.symm)]

theorem eval_same {E : Cfg F} {M M' : Str F D} (hs : SameExcept (IsSkolem E) M M') {t : Fm F}
    (ht : ∀ g i, ¬ HasSym (E.skolem g i) t) (ρ : Valn D) : Fm.eval M' ρ t = Fm.eval M ρ t :=
  eval_sym hs.truth hs.ofProp hs.dom t (fun g hg => hs.fn g (fun ⟨f, i, h⟩ => ht f i (h ▸ hg))) ρ

theorem logical_same {E : Cfg F} (hok : E.OK) {M M' : Str F D} (hs : SameExcept (IsSkolem E) M M') (h : Logical E M) :
    Logical E M' := by
  have hsk := hok.skolem_logic
  have e : ∀ g, (∀ f i, E.skolem f i ≠ g) → M'.fn g = M.fn g := fun g hg => hs.fn g (fun ⟨f, i, h⟩ => hg f i h.symm)
  refine ⟨⟨?_, ?_, ?_, ?_⟩, ?_, ?_, ?_, ?_⟩
  · intro a b; rw [hs.truth, e _ (fun f i => (hsk f i).1)]; exact h.sem.eq a b
  · intro l; rw [hs.truth, e _ (fun f i => (hsk f i).2.1)]; exact h.sem.and l
  · intro l; rw [hs.truth, e _ (fun f i => (hsk f i).2.2.1)]; exact h.sem.or l
  · rw [hs.truth, e _ (fun f i => (hsk f i).2.2.2.2.1)]; exact h.sem.tru
  · intro a b; rw [hs.truth, e _ (fun f i => (hsk f i).2.2.2.1)]; exact h.imp a b
  · intro a; rw [hs.truth, e _ (fun f i => (hsk f i).2.2.2.2.2.1)]; exact h.not a
  · intro c a b; rw [hs.truth, e _ (fun f i => (hsk f i).2.2.2.2.2.2)]; exact h.ite_true c a b
  · intro c a b; rw [hs.truth, e _ (fun f i => (hsk f i).2.2.2.2.2.2)]; exact h.ite_false c a b

theorem homo_same {E : Cfg F} (hok : E.OK) {M M' : Str F D} (hs : SameExcept (IsSkolem E) M M') (h : Homo E M) :
    Homo E M' := by
  have hv : E.val M' = E.val M := funext fun s => funext fun d => val_same hok hs s d
  have e : ∀ g, E.kind g ≠ .other → M'.fn g = M.fn g := fun g hg => hs.fn g (fun ⟨f, i, h⟩ => by
    subst h; exact hg (hok.skolem_kind f i))
  have ev : ∀ g g', E.evaluated g = some g' → M'.fn g' = M.fn g' := fun g g' hg => hs.fn g' (fun ⟨f, i, h⟩ =>
    hok.skolem_eval f i g g' hg h.symm)
  have hd : ∀ vs σ, InDom M' vs σ ↔ InDom M vs σ := fun vs σ => by simp only [InDom, hs.dom]
  refine ⟨?_, ?_, ?_, ?_, ?_, ?_, ?_⟩
  · intro f args out g hk ds hds
    rw [hv, e f (by rw [hk]; simp), ev f g (by simp [Cfg.evaluated, hk])]
    exact h.base f args out g hk ds (hs.dom ▸ hds)
  · intro f args g hk ds hds
    rw [hv, e f (by rw [hk]; simp), ev f g (by simp [Cfg.evaluated, hk])]
    exact h.conn f args g hk ds (hs.dom ▸ hds)
  · intro f hk a b ha hb
    rw [hv, e f (by rw [hk]; simp), ev f E.L.eq (by simp [Cfg.evaluated, hk])]
    exact h.eqTa f hk a b (hs.dom ▸ ha) (hs.dom ▸ hb)
  · intro f hk a ha
    rw [hv, e f (by rw [hk]; simp), ev f E.not (by simp [Cfg.evaluated, hk])]
    exact h.notTa f hk a (hs.dom ▸ ha)
  · intro f hk c a b hc ha hb
    rw [hv, e f (by rw [hk]; simp), hs.truth]
    exact h.ite f hk c a b (hs.dom ▸ hc) (hs.dom ▸ ha) (hs.dom ▸ hb)
  · intro f q bound free content hk σ hσ
    obtain ⟨-, -, -, hn⟩ := hok.taq f q bound free content hk
    rw [hv, e f (by rw [hk]; simp), hs.truth, quantVal_str hs.dom]
    simp only [eval_same hs hn]
    exact h.taq f q bound free content hk σ ((hd _ _).1 hσ)
  · intro f bound free cond succ fail hk σ hσ
    obtain ⟨-, -, -, -, -, hn, -⟩ := hok.fst f bound free cond succ fail hk
    rw [hv, e f (by rw [hk]; simp), hs.truth]
    simp only [eval_same hs (hn cond (by simp)).2.2, eval_same hs (hn succ (by simp)).2.2, eval_same hs (hn fail (by simp)).2.2, hd]
    exact h.fst f bound free cond succ fail hk σ ((hd _ _).1 hσ)

theorem lookup_zip {α : Type} : ∀ (vs : List Var) (g : Var → α) (v : Var), v ∈ vs → (vs.zip (vs.map g)).lookup v = some (g v) := by
  intro vs g v
  induction vs with
  | nil => intro h; cases h
  | cons w vs ih =>
    intro h
    simp only [List.map_cons, List.zip_cons_cons, List.lookup]
    by_cases hvw : v = w
    · subst hvw; simp
    · rw [show (v == w) = false from by simpa using hvw]
      exact ih (by rcases List.mem_cons.1 h with h | h; exact absurd h hvw; exact h)

theorem skolemOK_expand {E : Cfg F} {M : Str F D} (hok : E.OK) (hh : Homo E M) (hne : ∀ s, ∃ d, M.dom s d) :
    SkolemOK E (expand E M) := by
  intro f bound free cond succ fail hk σ κ hσ k1 k2
  have hs := expand_same E M
  have hv : E.val (expand E M) = E.val M := funext fun s => funext fun d => val_same hok hs s d
  obtain ⟨-, hnd, -, -, -, hn, hfl, -⟩ := hok.fst f bound free cond succ fail hk
  simp only [List.map_append, List.nodup_append] at hnd
  obtain ⟨hndb, hndf, hdisj⟩ := hnd
  have ef : (expand E M).fn f = M.fn f := hs.fn f (fun ⟨g, i, h⟩ => by
    have := hok.skolem_kind g i; rw [← h, hk] at this; cases this)
  have hσ' : InDom M free σ := hσ
  have hd : ∀ vs τ, InDom (expand E M) vs τ ↔ InDom M vs τ := fun vs τ => Iff.rfl
  rw [hv, ef]
  show (M.truth _ ∧ _) ∨ (_ ∧ ¬ M.truth _ ∧ _)
  simp only [eval_same hs (hn cond (by simp)).2.2, eval_same hs (hn succ (by simp)).2.2, eval_same hs (hn fail (by simp)).2.2, hd]
  have k2' : ∀ (i : Nat) (v : Var), bound[i]? = some v → κ v.id = pick E M f bound free cond succ (free.map fun (v : Var) => σ v.id) v.id :=
    fun i v h => by rw [k2 i v h, expand_skolem M hok hk h]
  have lk : ∀ v ∈ free, (free.zip (free.map fun v => σ v.id)).lookup v = some (σ v.id) := fun v hv => lookup_zip _ _ v hv
  have agree : ∀ τ : Valn D, (∀ v ∈ free, τ v.id = σ v.id) → (∀ v ∈ bound, τ v.id = κ v.id) → ∀ t ∈ [cond, succ],
      Fm.eval M κ t = Fm.eval M τ t := by
    intro τ h1 h2 t ht
    refine eval_agree_vars M t κ τ (fun v hv => ?_)
    rcases List.mem_append.1 ((hn t (by simp only [List.mem_cons] at ht ⊢; tauto)).2.1 v hv) with h | h
    · exact (h2 v h).symm
    · rw [h1 v h]
      exact k1 _ (fun h' => hdisj _ h' _ (List.mem_map.2 ⟨v, h, rfl⟩) rfl)
  by_cases hw : ∃ τ : Valn D, (∀ v ∈ free, some (τ v.id) = (free.zip (free.map fun v => σ v.id)).lookup v) ∧ InDom M bound τ ∧
      M.truth (E.val M .condition (Fm.eval M τ cond)) ∧
      E.val M .message (M.fn f (free.map fun v => σ v.id)) = E.val M .message (Fm.eval M τ succ)
  · obtain ⟨w1, w2, w3, w4⟩ := hw.choose_spec
    left
    have hb : ∀ v ∈ bound, hw.choose v.id = κ v.id := by
      intro v hv
      obtain ⟨i, hi⟩ := List.getElem?_of_mem hv
      rw [k2' i v hi]
      simp only [pick, hw, dif_pos]
    have hf : ∀ v ∈ free, hw.choose v.id = σ v.id := by
      intro v hv
      have := w1 v hv
      rw [lk v hv] at this
      exact Option.some.inj this
    rw [agree hw.choose hf hb cond (by simp), agree hw.choose hf hb succ (by simp)]
    exact ⟨w3, w4⟩
  · right
    rcases hh.fst f bound free cond succ fail hk σ hσ' with ⟨τ, t1, t2, t3, t4⟩ | ⟨h1, h2⟩
    · exfalso
      refine hw ⟨τ, fun v hv => ?_, t2, t3, t4⟩
      rw [lk v hv, t1 _ (fun h' => hdisj _ h' _ (List.mem_map.2 ⟨v, hv, rfl⟩) rfl)]
    · refine ⟨h1, ?_, h2⟩
      refine h1 κ k1 (fun v hv => ?_)
      obtain ⟨i, hi⟩ := List.getElem?_of_mem hv
      rw [k2' i v hi]
      simp only [pick, hw, dif_neg, not_false_eq_true]
      have he : ∃ d s, (⟨v.id, s⟩ : Var) ∈ bound ∧ M.dom s d := by
        obtain ⟨d, hd⟩ := hne v.sort
        exact ⟨d, v.sort, hv, hd⟩
      simp only [he, dif_pos]
      obtain ⟨s, hs1, hs2⟩ := he.choose_spec
      have : (⟨v.id, s⟩ : Var) = v := List.inj_on_of_nodup_map hndb hs1 hv rfl
      have hsv : s = v.sort := congrArg Var.sort this
      exact hsv ▸ hs2

/-! ## C32 -/

/-- C32, without the legacy axioms. In every interpretation in which evaluation is a homomorphism, the new
symbols can be given a meaning such that every axiom emitted about evaluation is true. Missing: with
`use_legacy_evaluate`, see `C32_legacy_counterexample`. -/
theorem C32_sound_partial (E : Cfg F) (M : Str F D) (hok : E.OK) (hl : Logical E M) (hh : Homo E M)
    (hne : ∀ s, ∃ d, M.dom s d)
    (hid : E.symbolic = false → ∀ s e, (s, e) ∈ E.evs → (∀ f i, E.skolem f i ≠ e) ∧ ∀ d, M.dom s d → M.fn e [d] = d)
    (hleg : E.legacy = false) (axs : List (Ax F)) (hg : E.generate = some axs) :
    ∃ M' : Str F D, SameExcept (IsSkolem E) M M' ∧ Logical E M' ∧ Homo E M' ∧ ∀ a ∈ axs, ∀ ρ, AxTrue M' ρ a := by
  have hs := expand_same E M
  refine ⟨expand E M, hs, logical_same hok hs hl, homo_same hok hs hh, ?_⟩
  refine sound_of_skolem E _ hok (logical_same hok hs hl) (homo_same hok hs hh) (skolemOK_expand hok hh hne) ?_ hleg axs hg
  intro h s e he d hd
  rw [hs.fn e (fun ⟨f, i, hf⟩ => (hid h s e he).1 f i hf.symm)]
  exact (hid h s e he).2 d hd

/-- C32. When no symbol is a `find … such that`, the axioms are true in the interpretation itself. -/
theorem C32_sound_no_find_partial (E : Cfg F) (M : Str F D) (hok : E.OK) (hl : Logical E M) (hh : Homo E M)
    (hfst : ∀ f b fr c s e, E.kind f ≠ .fst b fr c s e)
    (hid : E.symbolic = false → ∀ s e, (s, e) ∈ E.evs → ∀ d, M.dom s d → M.fn e [d] = d)
    (hleg : E.legacy = false) (axs : List (Ax F)) (hg : E.generate = some axs) :
    ∀ a ∈ axs, ∀ ρ, AxTrue M ρ a :=
  sound_of_skolem E M hok hl hh (fun f b fr c s e h => absurd h (hfst f b fr c s e)) hid hleg axs hg

/-- C32. The axioms are emitted: on a well formed problem all of whose base functions have an output sort of
the problem that can be evaluated, generation does not panic. -/
theorem C32_total (E : Cfg F) (hok : E.OK)
    (hb : ∀ f ∈ E.functions, ∀ args out ev, E.kind f = .base args out ev → out ∈ E.sorts ∧ (E.evalSort out).isSome) :
    ∃ axs, E.generate = some axs := by
  have hc : E.checked = true := by
    simp only [Cfg.checked, List.all_eq_true]
    intro f hf
    split
    next args out ev hk => exact (hb f hf args out ev hk).2
    · rfl
  have h1 : ∃ r, flatO E.rewriteOf E.functions = some r := flatO_some (fun f hf => by
    simp only [Cfg.rewriteOf]
    split
    next args out ev hk =>
      obtain ⟨hs, he⟩ := hb f hf args out ev hk
      obtain ⟨s', hs'⟩ := Option.isSome_iff_exists.1 he
      have hk' : ∃ k, E.rwKind out = some k := by
        simp only [Cfg.rwKind, hs, if_true, hs']
        cases s' <;> exact ⟨_, rfl⟩
      obtain ⟨k, hk'⟩ := hk'
      obtain ⟨pre, hpre⟩ := eval_some (E := E) (sortOf_app (hok.base f args out ev hk) ((sortsToVariables 0 args).map .var))
      obtain ⟨xs, hxs⟩ := mapO_vars_some E (sortsToVariables 0 args)
      simp [Cfg.rewriteAx, hk', hpre, hxs]
    · exact ⟨_, rfl⟩)
  have h2 : ∃ r, flatO E.legacyOf E.functions = some r := flatO_some (fun f hf => by
    simp only [Cfg.legacyOf]
    split
    next args out ev hk =>
      obtain ⟨a, ha⟩ := eval_some (E := E) (sortOf_app (hok.base f args out ev hk) ((sortsToVariables 0 args).map .var))
      obtain ⟨b, hb⟩ := eval_some (E := E) (sortOf_app (hok.base f args out ev hk)
        (((sortsToVariables 0 args).map fun (v : Var) => (⟨v.id + (sortsToVariables 0 args).length, v.sort⟩ : Var)).map .var))
      have hp : ∀ l : List (Var × Var), ∃ r, mapO (fun p : Var × Var => (E.eval (.var p.1)).bind fun a =>
          (E.eval (.var p.1)).map (E.L.meq a)) l = some r := fun l => mapO_some (fun p _ => by
        obtain ⟨x, hx⟩ := eval_some (E := E) (sortOf_var E.L p.1)
        simp [hx])
      obtain ⟨r, hr⟩ := hp ((sortsToVariables 0 args).zip
        ((sortsToVariables 0 args).map fun (v : Var) => (⟨v.id + (sortsToVariables 0 args).length, v.sort⟩ : Var)))
      simp only [Cfg.legacyAx]
      rw [hr, ha, hb]
      exact ⟨_, rfl⟩
    · exact ⟨_, rfl⟩)
  have h3 : ∃ r, flatO E.loopAx E.functions = some r := flatO_some (fun f hf => by
    simp only [Cfg.loopAx]
    split
    next args ev hk =>
      obtain ⟨a, ha⟩ := eval_some (E := E) (sortOf_app (hok.conn f args ev hk) ((sortsToVariables 0 args).map .var))
      obtain ⟨xs, hxs⟩ := mapO_vars_some E (sortsToVariables 0 args)
      simp [Cfg.connAx, ha, hxs]
    next hk =>
      obtain ⟨a, ha⟩ := eval_some (E := E) (sortOf_app (hok.eqTa f hk) [.var ⟨0, .message⟩, .var ⟨1, .message⟩])
      obtain ⟨x, hx⟩ := eval_some (E := E) (sortOf_var E.L ⟨0, .message⟩)
      obtain ⟨y, hy⟩ := eval_some (E := E) (sortOf_var E.L ⟨1, .message⟩)
      simp [Cfg.eqAx, ha, hx, hy]
    next hk =>
      obtain ⟨a, ha⟩ := eval_some (E := E) (sortOf_app (hok.notTa f hk) [.var ⟨0, .condition⟩])
      obtain ⟨x, hx⟩ := eval_some (E := E) (sortOf_var E.L ⟨0, .condition⟩)
      simp [Cfg.notAx, ha, hx]
    next hk =>
      obtain ⟨a, ha⟩ := eval_some (E := E) (sortOf_app (hok.ite f hk)
        (([⟨0, .condition⟩, ⟨1, .message⟩, ⟨2, .message⟩] : List Var).map .var))
      obtain ⟨xs, hxs⟩ := mapO_vars_some E [⟨0, .condition⟩, ⟨1, .message⟩, ⟨2, .message⟩]
      simp only [Cfg.iteAx, ha, hxs]
      exact ⟨_, rfl⟩
    next q bound free content hk =>
      obtain ⟨ho, -, hsc, -⟩ := hok.taq f q bound free content hk
      obtain ⟨a, ha⟩ := eval_some (E := E) (sortOf_app ho (free.map .var))
      obtain ⟨x, hx⟩ := eval_some hsc
      simp [Cfg.taqAx, ha, hx]
    next bound free cond succ fail hk =>
      obtain ⟨ho, hnd, hsc, hss, hsf, hcont, hfail, hsko⟩ := hok.fst f bound free cond succ fail hk
      simp only [List.map_append, List.nodup_append] at hnd
      obtain ⟨hndb, hndf, hdisj⟩ := hnd
      have hsort : ∀ t ∈ [cond, succ, fail], E.L.sortOf (Subst.apply (E.skolemSubst f bound free).get t) = E.L.sortOf t := by
        intro t ht
        refine sortOf_apply E.L _ t (fun v hv => ?_)
        rcases List.mem_append.1 ((hcont t ht).2.1 v hv) with h | h
        · obtain ⟨i, hi⟩ := List.getElem?_of_mem h
          rw [(skolemSubst_get E f bound free hndb v).1 i (by rw [hi]; rfl)]
          exact sortOf_app (hsko i v hi) _
        · rw [(skolemSubst_get E f bound free hndb v).2 (fun h' => hdisj _ h' _ (List.mem_map.2 ⟨v, h, rfl⟩) rfl)]
          rfl
      obtain ⟨a, ha⟩ := eval_some (E := E) (sortOf_app ho (free.map .var))
      obtain ⟨c, hc⟩ := eval_some hsc
      obtain ⟨c', hc'⟩ := eval_some ((hsort cond (by simp)).trans hsc)
      obtain ⟨l, hl⟩ := eval_some ((hsort succ (by simp)).trans hss)
      obtain ⟨r, hr⟩ := eval_some ((hsort fail (by simp)).trans hsf)
      simp only [Cfg.fstAx, ha, hc, hc', hl, hr]
      exact ⟨_, rfl⟩
    all_goals exact ⟨_, rfl⟩)
  obtain ⟨r1, h1⟩ := h1
  obtain ⟨r2, h2⟩ := h2
  obtain ⟨r3, h3⟩ := h3
  simp only [Cfg.generate, hc, if_true, h1, h2, h3]
  cases E.symbolic <;> cases E.noBitstring <;> cases E.legacy <;> simp

/-! ## C60: what the axioms say about evaluation -/

theorem sorts_valn {M : Str F D} {args : List Srt} {ds : List D} (hds : List.Forall₂ M.dom args ds) (ρ : Valn D) :
    ∃ τ : Valn D, (∀ i, i ∉ (sortsToVariables 0 args).map Var.id → τ i = ρ i) ∧ InDom M (sortsToVariables 0 args) τ ∧
      (sortsToVariables 0 args).map (fun v => τ v.id) = ds := by
  have hl : args.length = ds.length := hds.length_eq
  let τ : Valn D := fun i => if h : i < ds.length then ds[i] else ρ i
  have hτ : (sortsToVariables 0 args).map (fun v => τ v.id) = ds := by
    have : (sortsToVariables 0 args).map (fun v => τ v.id) = ((sortsToVariables 0 args).map Var.id).map τ := by
      rw [List.map_map]; rfl
    rw [this, sortsToVariables_ids, List.map_map]
    refine List.ext_getElem? (fun i => ?_)
    simp only [List.getElem?_map]
    by_cases hi : i < ds.length
    · simp [List.getElem?_range, hl, hi, τ]
    · simp [hl, hi, τ]
  refine ⟨τ, ?_, ?_, hτ⟩
  · intro i hi
    rw [sortsToVariables_ids] at hi
    have : ¬ i < ds.length := fun h' => hi (by simp [hl, h'])
    simp [τ, this]
  · have h2 : List.Forall₂ M.dom ((sortsToVariables 0 args).map Var.sort) ((sortsToVariables 0 args).map fun v => τ v.id) := by
      rw [sortsToVariables_sorts, hτ]; exact hds
    intro v hv
    rw [List.forall₂_map_left_iff, List.forall₂_map_right_iff, List.forall₂_same] at h2
    exact h2 v hv

/-- C60, base functions: where the axioms of the symbolic realm hold, evaluating an application of a base
function is applying its evaluated function to the evaluated arguments. -/
theorem C60_base (E : Cfg F) (M : Str F D) (hok : E.OK) (axs : List (Ax F)) (hg : E.generate = some axs)
    (hsym : E.symbolic = true) (hbit : E.noBitstring = false) (ρ : Valn D) (hax : ∀ a ∈ axs, AxTrue M ρ a)
    (f : F) (hf : f ∈ E.functions) (args : List Srt) (out : Srt) (ev : F) (hk : E.kind f = .base args out ev)
    (ds : List D) (hds : List.Forall₂ M.dom args ds) :
    E.val M out (M.fn f ds) = M.fn ev (List.zipWith (E.val M) args ds) := by
  simp only [Cfg.generate, hsym, hbit, Bool.false_eq_true, if_false, if_true] at hg
  split at hg
  case isFalse => cases hg
  simp only [Option.bind_eq_some_iff, Option.map_eq_some_iff] at hg
  obtain ⟨first, ⟨a, ha, l, -, rfl⟩, last, -, rfl⟩ := hg
  obtain ⟨c, hc, hin⟩ := flatO_mem' ha hf
  simp only [Cfg.rewriteOf, hk, Option.map_eq_some_iff] at hc
  obtain ⟨ax, hx, rfl⟩ := hc
  have h := hax ax (List.mem_cons_of_mem _ (List.mem_append_left _ (List.mem_append_left _ (hin ax (by simp)))))
  simp only [Cfg.rewriteAx] at hx
  split at hx
  next k pre post _ hpre hpost =>
    cases hx
    simp only [AxTrue] at h
    obtain ⟨τ, h1, h2, h3⟩ := sorts_valn hds ρ
    have key := quantVal_all_elim M _ _ ρ τ h1 h2 h
    rw [eval_val M (sortOf_app (hok.base f args out ev hk) _) hpre τ] at key
    simp only [Fm.eval, evals_vars] at key
    rw [evals_eq, mapO_vars M τ _ _ hpost, sortsToVariables_sorts, h3] at key
    exact key
  · cases hx

/-- The axioms of a symbol in the last loop are among those emitted. -/
theorem loop_mem {E : Cfg F} {axs : List (Ax F)} (hg : E.generate = some axs) {f : F} (hf : f ∈ E.functions) :
    ∃ c, E.loopAx f = some c ∧ ∀ a ∈ c, a ∈ axs := by
  simp only [Cfg.generate] at hg
  split at hg
  case isFalse => cases hg
  simp only [Option.bind_eq_some_iff, Option.map_eq_some_iff] at hg
  obtain ⟨first, -, last, hl, rfl⟩ := hg
  obtain ⟨c, hc, h⟩ := flatO_mem' hl hf
  exact ⟨c, hc, fun a ha => List.mem_cons_of_mem _ (List.mem_append_right _ (h a ha))⟩

/-- C60, connectives but negation: where the axioms hold, evaluation sends a connective of the term algebra to
the connective. -/
theorem C60_connective (E : Cfg F) (M : Str F D) (hok : E.OK) (hl : Logical E M) (axs : List (Ax F)) (hg : E.generate = some axs)
    (ρ : Valn D) (hax : ∀ a ∈ axs, AxTrue M ρ a) (f : F) (hf : f ∈ E.functions) (args : List Srt) (ev : F)
    (hk : E.kind f = .conn args ev) (ds : List D) (hds : List.Forall₂ M.dom args ds) :
    E.val M .condition (M.fn f ds) = M.fn ev (List.zipWith (E.val M) args ds) := by
  obtain ⟨cs, hc, hin⟩ := loop_mem hg hf
  simp only [Cfg.loopAx, hk, Option.map_eq_some_iff] at hc
  obtain ⟨ax, hx, rfl⟩ := hc
  have h := hax ax (hin ax (by simp))
  simp only [Cfg.connAx] at hx
  split at hx
  next t xs ht hxs =>
    cases hx
    obtain ⟨τ, h1, h2, h3⟩ := sorts_valn hds ρ
    have key := forall_elim h τ h1 h2
    simp only [Lang.meq, Fm.eval, evals, hl.sem.eq] at key
    rw [eval_val M (sortOf_app (hok.conn f args ev hk) _) ht, evals_eq, mapO_vars M _ _ _ hxs, sortsToVariables_sorts] at key
    simp only [Fm.eval, evals_vars] at key
    rw [h3] at key
    exact key
  · cases hx

/-- C60, equality and conditional: where the axioms hold, evaluation sends the equality of the term algebra to
the equality of the evaluations, and the conditional to the conditional. -/
theorem C60_eq_ite (E : Cfg F) (M : Str F D) (hok : E.OK) (hl : Logical E M) (axs : List (Ax F)) (hg : E.generate = some axs)
    (ρ : Valn D) (hax : ∀ a ∈ axs, AxTrue M ρ a) (f : F) (hf : f ∈ E.functions) :
    (E.kind f = .eqTa → ∀ a b, M.dom .message a → M.dom .message b →
      (M.truth (E.val M .condition (M.fn f [a, b])) ↔ E.val M .message a = E.val M .message b)) ∧
    (E.kind f = .ite → ∀ c a b, M.dom .condition c → M.dom .message a → M.dom .message b →
      (M.truth (E.val M .condition c) → E.val M .message (M.fn f [c, a, b]) = E.val M .message a) ∧
      (¬ M.truth (E.val M .condition c) → E.val M .message (M.fn f [c, a, b]) = E.val M .message b)) := by
  obtain ⟨cs, hc, hin⟩ := loop_mem hg hf
  have heq := hl.sem.eq
  constructor
  · intro hk a b ha hb
    simp only [Cfg.loopAx, hk, Option.map_eq_some_iff] at hc
    obtain ⟨ax, hx, rfl⟩ := hc
    have h := hax ax (hin ax (by simp))
    simp only [Cfg.eqAx] at hx
    split at hx
    next t x y ht hx' hy =>
      cases hx
      have key := forall_elim h ((ρ.set 0 a).set 1 b) (by
          intro i hi
          simp only [List.map_cons, List.map_nil, List.mem_cons, List.not_mem_nil, or_false, not_or] at hi
          simp [Valn.set, hi.1, hi.2]) (by
          intro v hv
          simp only [List.mem_cons, List.not_mem_nil, or_false] at hv
          rcases hv with rfl | rfl <;> simp [Valn.set, ha, hb])
      simp only [Lang.meq, Fm.eval, evals, heq] at key
      rw [eval_val M (sortOf_app (hok.eqTa f hk) _) ht, eval_val M (sortOf_var E.L _) hx', eval_val M (sortOf_var E.L _) hy] at key
      simp only [Fm.eval, evals, Valn.set] at key
      simp only [show (0 : Nat) ≠ 1 from by decide, if_true, if_false] at key
      rw [key, heq]
    · cases hx
  · intro hk c a b hc' ha hb
    simp only [Cfg.loopAx, hk, Option.map_eq_some_iff] at hc
    obtain ⟨ax, hx, rfl⟩ := hc
    have h := hax ax (hin ax (by simp))
    simp only [Cfg.iteAx] at hx
    split at hx
    next t xs ht hxs =>
      cases hx
      have key := forall_elim h (((ρ.set 0 c).set 1 a).set 2 b) (by
          intro i hi
          simp only [List.map_cons, List.map_nil, List.mem_cons, List.not_mem_nil, or_false, not_or] at hi
          simp [Valn.set, hi.1, hi.2.1, hi.2.2]) (by
          intro v hv
          simp only [List.mem_cons, List.not_mem_nil, or_false] at hv
          rcases hv with rfl | rfl | rfl <;> simp [Valn.set, ha, hb, hc'])
      simp only [Lang.meq, Fm.eval, evals, heq] at key
      rw [eval_val M (sortOf_app (hok.ite f hk) _) ht, evals_eq, mapO_vars M _ _ _ hxs] at key
      simp only [Fm.eval, evals, List.map_cons, List.map_nil, List.zipWith_cons_cons, List.zipWith_nil_right, Valn.set] at key
      simp only [show (0 : Nat) ≠ 1 from by decide, show (0 : Nat) ≠ 2 from by decide, show (1 : Nat) ≠ 2 from by decide,
        if_true, if_false] at key
      exact ⟨fun h => by rw [key, hl.ite_true _ _ _ h], fun h => by rw [key, hl.ite_false _ _ _ h]⟩
    · cases hx

/-- C60, negation and quantifiers: where the axioms hold, a negation that evaluates to true has a body that does
not, and a quantifier that evaluates to true has a body that evaluates to true for all (some) values of the
bound variables. Missing: the other implication, which fails: `C60_negation_counterexample`. -/
theorem C60_not_quantifier_partial (E : Cfg F) (M : Str F D) (hok : E.OK) (hl : Logical E M) (axs : List (Ax F))
    (hg : E.generate = some axs) (ρ : Valn D) (hax : ∀ a ∈ axs, AxTrue M ρ a) (f : F) (hf : f ∈ E.functions) :
    (E.kind f = .notTa → ∀ a, M.dom .condition a →
      M.truth (E.val M .condition (M.fn f [a])) → ¬ M.truth (E.val M .condition a)) ∧
    (∀ q bound free content, E.kind f = .taq q bound free content → ∀ σ, InDom M free σ →
      (∀ i, i ∉ free.map Var.id → σ i = ρ i) → M.truth (E.val M .condition (M.fn f (free.map fun v => σ v.id))) →
      quantVal M q bound (fun τ => M.truth (E.val M .condition (Fm.eval M τ content))) σ) := by
  obtain ⟨cs, hc, hin⟩ := loop_mem hg hf
  constructor
  · intro hk a ha
    simp only [Cfg.loopAx, hk, Option.map_eq_some_iff] at hc
    obtain ⟨ax, hx, rfl⟩ := hc
    have h := hax ax (hin ax (by simp))
    simp only [Cfg.notAx] at hx
    split at hx
    next t x ht hx' =>
      cases hx
      have key := forall_elim h (ρ.set 0 a) (by
          intro i hi
          simp only [List.map_cons, List.map_nil, List.mem_cons, List.not_mem_nil, or_false] at hi
          simp [Valn.set, hi]) (by
          intro v hv
          simp only [List.mem_cons, List.not_mem_nil, or_false] at hv
          subst hv; simp [Valn.set, ha])
      simp only [Fm.eval, evals, hl.imp, hl.not] at key
      rw [eval_val M (sortOf_app (hok.notTa f hk) _) ht, eval_val M (sortOf_var E.L _) hx'] at key
      simpa only [Fm.eval, evals, Valn.set, if_true] using key
    · cases hx
  · intro q bound free content hk σ hσ hoff
    simp only [Cfg.loopAx, hk, Option.map_eq_some_iff] at hc
    obtain ⟨ax, hx, rfl⟩ := hc
    have h := hax ax (hin ax (by simp))
    obtain ⟨ho, hnd, hsc, -⟩ := hok.taq f q bound free content hk
    simp only [Cfg.taqAx] at hx
    split at hx
    next t x ht hx' =>
      cases hx
      have key := forall_elim h σ hoff hσ
      simp only [Fm.eval, evals, hl.imp, truth_mkQuant] at key
      rw [eval_val M (sortOf_app ho _) ht] at key
      simpa only [Fm.eval, evals_vars, eval_val M hsc hx'] using key
    · cases hx

end Ev
end CV
