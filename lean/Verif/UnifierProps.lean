import Verif.Unifier
import Verif.Semantics
/-
Property C07: unification.
-/
namespace CV
variable {F D : Type}
open Fm

/-- SPECIFICATION. A valuation satisfies the equalities `xᵢ = tᵢ`. -/
def SatEqs (M : Str F D) (ρ : Valn D) (l : List (Nat × Fm F)) : Prop :=
  ∀ p ∈ l, ρ p.1 = eval M ρ p.2

/-- SPECIFICATION. Symbols are constructors: injective on argument lists of the same length. -/
def Str.Injective (M : Str F D) : Prop :=
  ∀ f as bs, as.length = bs.length → M.fn f as = M.fn f bs → as = bs

/-- SPECIFICATION. Different symbols (or arities) never give the same value. -/
def Str.ClashFree (M : Str F D) : Prop :=
  ∀ f g as bs, M.fn f as = M.fn g bs → f = g ∧ as.length = bs.length

theorem SatEqs.append {M : Str F D} {ρ : Valn D} {a b : List (Nat × Fm F)} :
    SatEqs M ρ (a ++ b) ↔ SatEqs M ρ a ∧ SatEqs M ρ b := by
  constructor
  · intro h
    exact ⟨fun p hp => h p (List.mem_append_left _ hp), fun p hp => h p (List.mem_append_right _ hp)⟩
  · rintro ⟨h1, h2⟩ p hp
    rcases List.mem_append.1 hp with h | h
    · exact h1 p h
    · exact h2 p h

theorem SatEqs.one {M : Str F D} {ρ : Valn D} {i : Nat} {t : Fm F} :
    SatEqs M ρ [(i, t)] ↔ ρ i = eval M ρ t := by
  simp [SatEqs]

theorem SatEqs.get {M : Str F D} {ρ : Valn D} {s : MSubst F} (h : SatEqs M ρ s) {i : Nat} {t : Fm F}
    (hg : s.maybeGet i = some t) : ρ i = eval M ρ t := by
  unfold MSubst.maybeGet at hg
  rw [Option.map_eq_some_iff] at hg
  obtain ⟨p, hp, rfl⟩ := hg
  have h1 := List.find?_some hp
  simp only [beq_iff_eq] at h1
  rw [← h1]
  exact h p (List.mem_of_find?_eq_some hp)

theorem isVarEq_spec {v : Var} {t : Fm F} (h : t.isVarEq v = true) :
    ∃ w : Var, t = .var w ∧ w.id = v.id := by
  cases t with
  | var w => exact ⟨w, rfl, by simp only [isVarEq, beq_iff_eq] at h; exact h.symm⟩
  | app _ _ => simp [isVarEq] at h
  | quant _ _ _ => simp [isVarEq] at h

variable [DecidableEq F]

/-- The invariant of one call: on success the new equalities are the old ones plus `l = r`. -/
def CallOK (M : Str F D) (k : Fm F → Fm F → MSubst F → MSubst F → URes F) : Prop :=
  ∀ l r lp rp lp' rp', k l r lp rp = some (true, lp', rp') → ∀ ρ : Valn D,
    (SatEqs M ρ (lp' ++ rp') → SatEqs M ρ (lp ++ rp) ∧ eval M ρ l = eval M ρ r) ∧
    (M.Injective → SatEqs M ρ (lp ++ rp) → eval M ρ l = eval M ρ r → SatEqs M ρ (lp' ++ rp'))

omit [DecidableEq F] in
theorem mguAll_ok (M : Str F D) (k : Fm F → Fm F → MSubst F → MSubst F → URes F)
    (hk : CallOK M k) : ∀ (as bs : List (Fm F)) (lp rp lp' rp' : MSubst F),
      as.length = bs.length → mguAll k as bs lp rp = some (true, lp', rp') → ∀ ρ : Valn D,
      (SatEqs M ρ (lp' ++ rp') → SatEqs M ρ (lp ++ rp) ∧ as.map (eval M ρ) = bs.map (eval M ρ)) ∧
      (M.Injective → SatEqs M ρ (lp ++ rp) → as.map (eval M ρ) = bs.map (eval M ρ) →
        SatEqs M ρ (lp' ++ rp')) := by
  intro as
  induction as with
  | nil =>
    intro bs lp rp lp' rp' hl h ρ
    cases bs with
    | nil => simp [mguAll] at h; obtain ⟨rfl, rfl⟩ := h; simp
    | cons _ _ => simp at hl
  | cons a as ih =>
    intro bs lp rp lp' rp' hl h ρ
    cases bs with
    | nil => simp at hl
    | cons b bs =>
      simp only [List.length_cons, Nat.add_right_cancel_iff] at hl
      simp only [mguAll] at h
      split at h
      · rename_i lp1 rp1 hk1
        have h1 := hk _ _ _ _ _ _ hk1 ρ
        have h2 := ih bs lp1 rp1 lp' rp' hl h ρ
        constructor
        · intro hs
          obtain ⟨hs1, e⟩ := h2.1 hs
          obtain ⟨hs2, e2⟩ := h1.1 hs1
          exact ⟨hs2, by simp [e, e2]⟩
        · intro hM hs e
          simp only [List.map_cons, List.cons.injEq] at e
          exact h2.2 hM (h1.2 hM hs e.1) e.2
      · rename_i hne
        exact absurd h (hne lp' rp')

theorem mguAux_ok (M : Str F D) : ∀ n, CallOK M (mguAux (F := F) n) := by
  intro n
  induction n with
  | zero => intro l r lp rp lp' rp' h; simp [mguAux] at h
  | succ n ih =>
    intro l r lp rp lp' rp' h ρ
    cases l with
    | var v =>
      simp only [mguAux] at h
      split at h
      · rename_i hv
        obtain ⟨w, rfl, hw⟩ := isVarEq_spec hv
        simp only [Option.some.injEq, Prod.mk.injEq, true_and] at h
        obtain ⟨rfl, rfl⟩ := h
        simp [eval, hw]
      · split at h
        · rename_i v2 hg
          split at h
          · rename_i v3
            split at h
            · rename_i hv
              simp only [Option.some.injEq, Prod.mk.injEq, true_and] at h
              obtain ⟨rfl, rfl⟩ := h
              refine ⟨fun hs => ⟨hs, ?_⟩, fun _ hs _ => hs⟩
              have := (SatEqs.append.1 hs).1.get hg
              simpa [eval, hv] using this
            · split at h
              · rename_i t ht
                simp only [Option.some.injEq, Prod.mk.injEq] at h
                obtain ⟨he, rfl, rfl⟩ := h
                obtain ⟨w, rfl, hw⟩ := isVarEq_spec he
                refine ⟨fun hs => ⟨hs, ?_⟩, fun _ hs _ => hs⟩
                have h1 := (SatEqs.append.1 hs).1.get hg
                have h2 := (SatEqs.append.1 hs).2.get ht
                simp only [eval] at h1 h2 ⊢
                rw [h1, h2, hw]
              · simp only [Option.some.injEq, Prod.mk.injEq, true_and] at h
                obtain ⟨rfl, rfl⟩ := h
                simp only [MSubst.add, SatEqs.append, SatEqs.one]
                refine ⟨fun ⟨h1, h2, h3⟩ => ⟨⟨h1, h2⟩, ?_⟩, fun _ ⟨h1, h2⟩ h3 => ⟨h1, h2, ?_⟩⟩
                · have := h1.get hg
                  simp only [eval] at this h3 ⊢
                  rw [this, h3]
                · have := h1.get hg
                  simp only [eval] at this h3 ⊢
                  rw [← this, h3]
          · simp at h
        · rename_i nl hnv hg
          have := ih _ _ _ _ _ _ h ρ
          refine ⟨fun hs => ?_, fun hM hs e => this.2 hM hs ?_⟩
          · obtain ⟨h1, h2⟩ := this.1 hs
            refine ⟨h1, ?_⟩
            have := (SatEqs.append.1 h1).1.get hg
            simp only [eval]; rw [this, h2]
          · have := (SatEqs.append.1 hs).1.get hg
            simp only [eval] at e; rw [← this, e]
        · simp only [Option.some.injEq, Prod.mk.injEq, true_and] at h
          obtain ⟨rfl, rfl⟩ := h
          simp only [MSubst.add, SatEqs.append, SatEqs.one, eval]
          exact ⟨fun ⟨⟨h1, h2⟩, h3⟩ => ⟨⟨h1, h3⟩, h2⟩, fun _ ⟨h1, h2⟩ h3 => ⟨⟨h1, h3⟩, h2⟩⟩
    | app f as =>
      cases r with
      | var v =>
        simp only [mguAux] at h
        split at h
        · simp at h
        · rename_i nl hnv hg
          have := ih _ _ _ _ _ _ h ρ
          -- the recursive call compares the stored term with the same variable again
          revert h
          cases n with
          | zero => intro h; simp [mguAux] at h
          | succ n =>
            intro h
            exfalso
            clear this ih
            have key : ∀ m, mguAux m nl (.var v) lp rp ≠ some (true, lp', rp') := by
              intro m
              induction m with
              | zero => simp [mguAux]
              | succ m ihm =>
                cases nl with
                | var w => exact absurd rfl (hnv w)
                | app g bs => simpa [mguAux, hg] using ihm
                | quant q vs b => simpa [mguAux, hg] using ihm
            exact key _ h
        · simp only [Option.some.injEq, Prod.mk.injEq, true_and] at h
          obtain ⟨rfl, rfl⟩ := h
          simp only [MSubst.add, SatEqs.append, SatEqs.one, eval]
          exact ⟨fun ⟨h1, h2, h3⟩ => ⟨⟨h1, h2⟩, h3.symm⟩, fun _ ⟨h1, h2⟩ h3 => ⟨h1, h2, h3.symm⟩⟩
      | app g bs =>
        simp only [mguAux] at h
        split at h
        · rename_i hfg
          obtain ⟨rfl, hlen⟩ := hfg
          have := mguAll_ok M _ ih as bs lp rp lp' rp' hlen h ρ
          simp only [eval, evals_eq]
          refine ⟨fun hs => ⟨(this.1 hs).1, by rw [(this.1 hs).2]⟩, fun hM hs e => ?_⟩
          exact this.2 hM hs (hM f _ _ (by simp [hlen]) e)
        · simp at h
      | quant q vs b => simp [mguAux] at h
    | quant q vs b =>
      cases r with
      | var v =>
        simp only [mguAux] at h
        split at h
        · simp at h
        · rename_i nl hnv hg
          exfalso
          have key : ∀ m, mguAux m nl (.var v) lp rp ≠ some (true, lp', rp') := by
            intro m
            induction m with
            | zero => simp [mguAux]
            | succ m ihm =>
              cases nl with
              | var w => exact absurd rfl (hnv w)
              | app g bs => simpa [mguAux, hg] using ihm
              | quant q vs b => simpa [mguAux, hg] using ihm
          exact key _ h
        · simp only [Option.some.injEq, Prod.mk.injEq, true_and] at h
          obtain ⟨rfl, rfl⟩ := h
          simp only [MSubst.add, SatEqs.append, SatEqs.one]
          exact ⟨fun ⟨h1, h2, h3⟩ => ⟨⟨h1, h2⟩, h3.symm⟩, fun _ ⟨h1, h2⟩ h3 => ⟨h1, h2, h3.symm⟩⟩
      | app g bs => simp [mguAux] at h
      | quant q vs b => simp [mguAux] at h

omit [DecidableEq F] in
theorem asEqualities_some {u : Unif F} {eqs} (h : u.asEqualities = some eqs) :
    eqs = u.left ++ u.right := by
  unfold Unif.asEqualities at h
  split at h
  · cases h
  · exact (Option.some.inj h).symm

/-- **C07, soundness.** When matching succeeds, whatever the fuel, every valuation in every
structure satisfying the emitted equalities gives the two terms the same value. -/
theorem C07_equalities_sound (M : Str F D) (ρ : Valn D) (n : Nat) (l r : Fm F) (u : Unif F)
    (eqs : List (Nat × Fm F)) (h : mgu n l r = some (some u)) (he : u.asEqualities = some eqs)
    (hs : SatEqs M ρ eqs) : eval M ρ l = eval M ρ r := by
  rw [asEqualities_some he] at hs
  unfold mgu at h
  rw [Option.map_eq_some_iff] at h
  obtain ⟨⟨b, lp, rp⟩, h1, h2⟩ := h
  cases b
  · simp at h2
  · simp only [if_true, Option.some.injEq] at h2
    subst h2
    exact ((mguAux_ok M n l r [] [] lp rp h1 ρ).1 hs).2

/-- **C07, generality.** In a term algebra (injective symbols), every valuation that makes the two
terms equal satisfies the emitted equalities: the answer loses no instance. -/
theorem C07_equalities_most_general (M : Str F D) (hM : M.Injective) (ρ : Valn D) (n : Nat)
    (l r : Fm F) (u : Unif F) (eqs : List (Nat × Fm F)) (h : mgu n l r = some (some u))
    (he : u.asEqualities = some eqs) (heq : eval M ρ l = eval M ρ r) : SatEqs M ρ eqs := by
  rw [asEqualities_some he]
  unfold mgu at h
  rw [Option.map_eq_some_iff] at h
  obtain ⟨⟨b, lp, rp⟩, h1, h2⟩ := h
  cases b
  · simp at h2
  · simp only [if_true, Option.some.injEq] at h2
    subst h2
    exact (mguAux_ok M n l r [] [] lp rp h1 ρ).2 hM (by simp [SatEqs]) heq

/-- **C07.** The shortcut "unifies to a variable": the terms are equal exactly when that one
equality holds. -/
theorem C07_to_variable (M : Str F D) (hM : M.Injective) (ρ : Valn D) (n : Nat) (l r : Fm F)
    (u : Unif F) (i : Nat) (t : Fm F) (h : mgu n l r = some (some u))
    (hv : u.toVariable = some (i, t)) : eval M ρ l = eval M ρ r ↔ ρ i = eval M ρ t := by
  have hu : u.left = [] ∧ u.right = [(i, t)] := by
    unfold Unif.toVariable at hv
    split at hv
    · rename_i hc
      obtain ⟨h1, h2⟩ := hc
      refine ⟨by simpa using h1, ?_⟩
      cases hr : u.right with
      | nil => rw [hr] at h2; cases h2
      | cons p ps =>
        rw [hr] at h2 hv
        simp only [List.head?_cons, Option.some.injEq] at hv
        simp only [List.length_cons, Nat.add_eq_right, List.length_eq_zero_iff] at h2
        rw [hv, h2]
    · cases hv
  have he : u.asEqualities = some [(i, t)] := by
    simp [Unif.asEqualities, hu.1, hu.2]
  constructor
  · intro e
    exact SatEqs.one.1 (C07_equalities_most_general M hM ρ n l r u _ h he e)
  · intro e
    exact C07_equalities_sound M ρ n l r u _ h he (SatEqs.one.2 e)

/-! ### Where the full property fails -/

/-- **C07, termination fails.** Matching `f(a, b)` against `f(y, y)` never answers. -/
theorem C07_diverges :
    ∀ n, mgu n (.app 0 [.app 1 [], .app 2 []] : Fm Nat)
      (.app 0 [.var ⟨7, .message⟩, .var ⟨7, .message⟩]) = none := by
  have key : ∀ n, mguAux n (.app 1 [] : Fm Nat) (.var ⟨7, .message⟩) [] [(7, .app 1 [])] = none := by
    intro n
    induction n with
    | zero => rfl
    | succ n ih => simpa [mguAux, MSubst.maybeGet] using ih
  intro n
  match n with
  | 0 => rfl
  | 1 => rfl
  | 2 => rfl
  | n + 3 =>
    have := key n
    simp [mgu, mguAux, mguAll, MSubst.maybeGet, MSubst.add, this]

/-- The free term structure on ground terms over `Nat` symbols. -/
inductive GTerm
  | node (f : Nat) (args : List GTerm)

/-- The term algebra: symbols are interpreted freely. -/
noncomputable def termStr : Str Nat GTerm where
  fn := GTerm.node
  truth := fun t => match t with
    | .node n _ => n = 1
  ofProp := fun p => .node (@ite _ p (Classical.propDecidable p) 1 0) []
  truth_ofProp := fun p => by
    by_cases h : p <;> simp [h]
  dom := fun _ _ => True

theorem termStr_injective : termStr.Injective := by
  intro f as bs _ h
  exact (GTerm.node.inj h).2

theorem termStr_clashFree : termStr.ClashFree := by
  intro f g as bs h
  have := GTerm.node.inj h
  exact ⟨this.1, by rw [this.2]⟩

/-- **C07, completeness fails.** `k(x,x,z,z)` and `k(y,w,u,w)` have no variable in common and are
unifiable (all variables equal), yet matching answers "no". -/
theorem C07_incomplete :
    ∃ (l r : Fm Nat) (n : Nat), (∀ v ∈ l.vars, ∀ w ∈ r.vars, v.id ≠ w.id) ∧
      mgu n l r = some none ∧ ∃ ρ : Valn GTerm, eval termStr ρ l = eval termStr ρ r := by
  refine ⟨.app 0 [.var ⟨0, .index⟩, .var ⟨0, .index⟩, .var ⟨1, .index⟩, .var ⟨1, .index⟩],
    .app 0 [.var ⟨2, .index⟩, .var ⟨3, .index⟩, .var ⟨4, .index⟩, .var ⟨3, .index⟩], 5, ?_, ?_, ?_⟩
  · decide
  · simp [mgu, mguAux, mguAll, MSubst.maybeGet, MSubst.add, isVarEq]
  · exact ⟨fun _ => .node 0 [], by simp [eval, evals]⟩

/-- **C07, two-sided instantiation fails** when the two terms share a variable: `f(x,x)` against
`f(a,x)` answers `x := a` on the left and nothing on the right. -/
theorem C07_shared_variable_counterexample :
    ∃ (l r : Fm Nat) (n : Nat) (u : Unif Nat), mgu n l r = some (some u) ∧
      Subst.apply u.left.get l ≠ Subst.apply u.right.get r := by
  refine ⟨.app 0 [.var ⟨0, .message⟩, .var ⟨0, .message⟩], .app 0 [.app 1 [], .var ⟨0, .message⟩], 5,
    ⟨[(0, .app 1 [])], []⟩, by simp [mgu, mguAux, mguAll, MSubst.maybeGet, MSubst.add, isVarEq], ?_⟩
  decide

/-! ### The part that does hold: linear terms, and ground right-hand sides -/

/-- Case analysis of one call when neither side's variable is bound yet and the terms are
quantifier-free and linear: it terminates, only binds variables of the two terms, and a negative
answer is right. -/
def LinOK (k : Fm F → Fm F → MSubst F → MSubst F → URes F) (l r : Fm F) : Prop :=
  ∀ lp rp, (∀ v ∈ l.vars, v.id ∉ lp.map Prod.fst) → (∀ v ∈ r.vars, v.id ∉ rp.map Prod.fst) →
    ∃ b lp' rp', k l r lp rp = some (b, lp', rp') ∧
      (∀ i ∈ lp'.map Prod.fst, i ∈ lp.map Prod.fst ∨ ∃ v ∈ l.vars, v.id = i) ∧
      (∀ i ∈ rp'.map Prod.fst, i ∈ rp.map Prod.fst ∨ ∃ v ∈ r.vars, v.id = i) ∧
      (b = false → ∀ (D : Type) (M : Str F D), M.Injective → M.ClashFree → ∀ ρ : Valn D,
        eval M ρ l ≠ eval M ρ r)

omit [DecidableEq F] in
theorem maybeGet_none {s : MSubst F} {i : Nat} (h : i ∉ s.map Prod.fst) : s.maybeGet i = none := by
  unfold MSubst.maybeGet
  rw [Option.map_eq_none_iff, List.find?_eq_none]
  intro p hp hc
  simp only [beq_iff_eq] at hc
  exact h (List.mem_map.2 ⟨p, hp, hc⟩)

omit [DecidableEq F] in
theorem mguAll_lin (k : Fm F → Fm F → MSubst F → MSubst F → URes F) :
    ∀ (as bs : List (Fm F)), as.length = bs.length →
      (∀ a ∈ as, ∀ b ∈ bs, LinOK k a b) →
      ((varss as).map Var.id).Nodup → ((varss bs).map Var.id).Nodup →
      ∀ lp rp, (∀ v ∈ varss as, v.id ∉ lp.map Prod.fst) → (∀ v ∈ varss bs, v.id ∉ rp.map Prod.fst) →
      ∃ b lp' rp', mguAll k as bs lp rp = some (b, lp', rp') ∧
        (∀ i ∈ lp'.map Prod.fst, i ∈ lp.map Prod.fst ∨ ∃ v ∈ varss as, v.id = i) ∧
        (∀ i ∈ rp'.map Prod.fst, i ∈ rp.map Prod.fst ∨ ∃ v ∈ varss bs, v.id = i) ∧
        (b = false → ∀ (D : Type) (M : Str F D), M.Injective → M.ClashFree → ∀ ρ : Valn D,
          as.map (eval M ρ) ≠ bs.map (eval M ρ)) := by
  intro as
  induction as with
  | nil =>
    intro bs hl _ _ _ lp rp _ _
    cases bs with
    | nil =>
      exact ⟨true, lp, rp, rfl, fun i hi => Or.inl hi, fun i hi => Or.inl hi, by simp⟩
    | cons _ _ => simp at hl
  | cons a as ih =>
    intro bs hl hk hna hnb lp rp hlp hrp
    cases bs with
    | nil => simp at hl
    | cons b bs =>
      simp only [List.length_cons, Nat.add_right_cancel_iff] at hl
      simp only [varss, List.map_append, List.nodup_append] at hna hnb
      obtain ⟨c, lp1, rp1, h1, h2, h3, h4⟩ := hk a (by simp) b (by simp) lp rp
        (fun v hv => hlp v (by simp [varss, hv])) (fun v hv => hrp v (by simp [varss, hv]))
      cases c with
      | false =>
        refine ⟨false, lp1, rp1, by simp [mguAll, h1], ?_, ?_, ?_⟩
        · intro i hi
          rcases h2 i hi with h | ⟨v, hv, e⟩
          · exact Or.inl h
          · exact Or.inr ⟨v, by simp [varss, hv], e⟩
        · intro i hi
          rcases h3 i hi with h | ⟨v, hv, e⟩
          · exact Or.inl h
          · exact Or.inr ⟨v, by simp [varss, hv], e⟩
        · intro _ D M hM hC ρ e
          simp only [List.map_cons, List.cons.injEq] at e
          exact h4 rfl D M hM hC ρ e.1
      | true =>
        obtain ⟨c', lp2, rp2, g1, g2, g3, g4⟩ := ih bs hl
          (fun x hx y hy => hk x (by simp [hx]) y (by simp [hy])) hna.2.1 hnb.2.1 lp1 rp1
          (by
            intro v hv hc
            rcases h2 _ hc with h | ⟨w, hw, e⟩
            · exact hlp v (by simp [varss, hv]) h
            · exact hna.2.2 w.id (List.mem_map.2 ⟨w, hw, rfl⟩) v.id (List.mem_map.2 ⟨v, hv, rfl⟩) e)
          (by
            intro v hv hc
            rcases h3 _ hc with h | ⟨w, hw, e⟩
            · exact hrp v (by simp [varss, hv]) h
            · exact hnb.2.2 w.id (List.mem_map.2 ⟨w, hw, rfl⟩) v.id (List.mem_map.2 ⟨v, hv, rfl⟩) e)
        refine ⟨c', lp2, rp2, by simp [mguAll, h1, g1], ?_, ?_, ?_⟩
        · intro i hi
          rcases g2 i hi with h | ⟨v, hv, e⟩
          · rcases h2 i h with h | ⟨v, hv, e⟩
            · exact Or.inl h
            · exact Or.inr ⟨v, by simp [varss, hv], e⟩
          · exact Or.inr ⟨v, by simp [varss, hv], e⟩
        · intro i hi
          rcases g3 i hi with h | ⟨v, hv, e⟩
          · rcases h3 i h with h | ⟨v, hv, e⟩
            · exact Or.inl h
            · exact Or.inr ⟨v, by simp [varss, hv], e⟩
          · exact Or.inr ⟨v, by simp [varss, hv], e⟩
        · intro hc D M hM hC ρ e
          simp only [List.map_cons, List.cons.injEq] at e
          exact g4 hc D M hM hC ρ e.2

/-- SPECIFICATION. No quantifier anywhere. -/
inductive NoQuant : Fm F → Prop
  | var (v) : NoQuant (.var v)
  | app {f args} : (∀ a ∈ args, NoQuant a) → NoQuant (.app f args)

omit [DecidableEq F] in
theorem nodup_arg {args : List (Fm F)} (h : ((varss args).map Var.id).Nodup) {a : Fm F}
    (ha : a ∈ args) : (a.vars.map Var.id).Nodup := by
  induction args with
  | nil => cases ha
  | cons b bs ih =>
    simp only [varss, List.map_append, List.nodup_append] at h
    rcases List.mem_cons.1 ha with rfl | ha
    · exact h.1
    · exact ih h.2.1 ha

theorem mguAux_lin : ∀ (n : Nat) (l r : Fm F), l.size ≤ n → NoQuant l → NoQuant r →
    (l.vars.map Var.id).Nodup → (r.vars.map Var.id).Nodup → LinOK (mguAux n) l r := by
  intro n
  induction n with
  | zero => intro l r h; have := l.size_pos; omega
  | succ n ih =>
    intro l r hsz hl hr hnl hnr lp rp hlp hrp
    cases hl with
    | var v =>
      by_cases hv : r.isVarEq v = true
      · refine ⟨true, lp, rp, by simp [mguAux, hv], fun i hi => Or.inl hi, fun i hi => Or.inl hi,
          by simp⟩
      · have hg := maybeGet_none (hlp v (by simp [vars]))
        refine ⟨true, lp.add v.id r, rp, by simp [mguAux, hv, hg], ?_, fun i hi => Or.inl hi, by simp⟩
        intro i hi
        simp only [MSubst.add, List.map_append, List.mem_append, List.map_cons, List.map_nil,
          List.mem_singleton] at hi
        rcases hi with hi | rfl
        · exact Or.inl hi
        · exact Or.inr ⟨v, by simp [vars], rfl⟩
    | app hla =>
      rename_i f as
      cases hr with
      | var v =>
        have hg := maybeGet_none (hrp v (by simp [vars]))
        refine ⟨true, lp, rp.add v.id (.app f as), by simp [mguAux, hg], fun i hi => Or.inl hi, ?_,
          by simp⟩
        intro i hi
        simp only [MSubst.add, List.map_append, List.mem_append, List.map_cons, List.map_nil,
          List.mem_singleton] at hi
        rcases hi with hi | rfl
        · exact Or.inl hi
        · exact Or.inr ⟨v, by simp [vars], rfl⟩
      | app hra =>
        rename_i g bs
        by_cases hfg : f = g ∧ as.length = bs.length
        · obtain ⟨rfl, hlen⟩ := hfg
          have hsz' : ∀ a ∈ as, a.size ≤ n := by
            intro a ha
            have := size_lt_of_mem ha
            simp [size] at hsz; omega
          obtain ⟨b, lp', rp', h1, h2, h3, h4⟩ := mguAll_lin (mguAux n) as bs hlen
            (fun a ha b hb => ih a b (hsz' a ha) (hla a ha) (hra b hb)
              (nodup_arg hnl ha) (nodup_arg hnr hb)) hnl hnr lp rp hlp hrp
          refine ⟨b, lp', rp', by simp [mguAux, hlen, h1], h2, h3, ?_⟩
          intro hb D M hM hC ρ e
          simp only [eval, evals_eq] at e
          exact h4 hb D M hM hC ρ (hM f _ _ (by simp [hlen]) e)
        · refine ⟨false, lp, rp, by simp [mguAux, hfg], fun i hi => Or.inl hi,
            fun i hi => Or.inl hi, ?_⟩
          intro _ D M hM hC ρ e
          simp only [eval, evals_eq] at e
          have := hC _ _ _ _ e
          exact hfg ⟨this.1, by simpa using this.2⟩

/-- **C07 (partial).** For quantifier-free terms in which no variable occurs twice, matching always
answers, and "no" is right: the terms are equal under no valuation in any term algebra.
Missing for the full property: non-linear terms, where the code may loop (`C07_diverges`) or
answer "no" on unifiable terms (`C07_incomplete`). -/
theorem C07_linear_partial (l r : Fm F) (hl : NoQuant l) (hr : NoQuant r)
    (hnl : (l.vars.map Var.id).Nodup) (hnr : (r.vars.map Var.id).Nodup) :
    ∃ n, ∀ m, n ≤ m → ∃ a, mgu m l r = some a ∧
      (a = none → ∀ (D : Type) (M : Str F D), M.Injective → M.ClashFree → ∀ ρ : Valn D,
        eval M ρ l ≠ eval M ρ r) := by
  refine ⟨l.size, fun m hm => ?_⟩
  obtain ⟨b, lp, rp, h, _, _, h4⟩ := mguAux_lin m l r hm hl hr hnl hnr [] [] (by simp) (by simp)
  cases b
  · exact ⟨none, by simp [mgu, h], fun _ => h4 rfl⟩
  · exact ⟨some ⟨lp, rp⟩, by simp [mgu, h], by simp⟩

example : mgu 9 (.app 0 [.var ⟨0, .message⟩, .app 1 [.var ⟨1, .message⟩]] : Fm Nat)
    (.app 0 [.app 2 [], .var ⟨5, .message⟩])
    = some (some ⟨[(0, .app 2 [])], [(5, .app 1 [.var ⟨1, .message⟩])]⟩) := by
  simp [mgu, mguAux, mguAll, MSubst.maybeGet, MSubst.add, isVarEq]

end CV
