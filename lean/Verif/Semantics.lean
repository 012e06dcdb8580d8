import Verif.Formula
/-
SPECIFICATION side: many-sorted first-order semantics of formulas. Nothing here models code;
it is what "meaning" refers to in the properties.
-/
namespace CV

/-- A first-order structure over one universe `D`, with a carrier predicate per sort. Formulas
are terms of sort bool, so truth values live in `D` as well. -/
structure Str (F : Type) (D : Type) where
  fn : F → List D → D
  truth : D → Prop
  ofProp : Prop → D
  truth_ofProp : ∀ p, truth (ofProp p) ↔ p
  dom : Srt → D → Prop

/-- Valuations assign a value to every variable number. -/
abbrev Valn (D : Type) := Nat → D

/-- `ρ[i := d]`. -/
def Valn.set {D : Type} (ρ : Valn D) (i : Nat) (d : D) : Valn D := fun j => if j = i then d else ρ j

/-- `∀`/`∃` over a block of sorted variables. -/
def quantVal {F D : Type} (M : Str F D) (q : QKind) : List Var → (Valn D → Prop) → Valn D → Prop
  | [], P, ρ => P ρ
  | v :: vs, P, ρ =>
    match q with
    | .all => ∀ d, M.dom v.sort d → quantVal M q vs P (ρ.set v.id d)
    | .ex => ∃ d, M.dom v.sort d ∧ quantVal M q vs P (ρ.set v.id d)

namespace Fm
variable {F D : Type}

mutual
/-- Value of a formula. -/
def eval (M : Str F D) (ρ : Valn D) : Fm F → D
  | var v => ρ v.id
  | app f args => M.fn f (evals M ρ args)
  | quant q vs b => M.ofProp (quantVal M q vs (fun ρ' => M.truth (eval M ρ' b)) ρ)
def evals (M : Str F D) (ρ : Valn D) : List (Fm F) → List D
  | [] => []
  | a :: as => eval M ρ a :: evals M ρ as
end

/-- Truth of a formula. -/
def holds (M : Str F D) (ρ : Valn D) (f : Fm F) : Prop := M.truth (eval M ρ f)

theorem evals_eq (M : Str F D) (ρ : Valn D) (l : List (Fm F)) : evals M ρ l = l.map (eval M ρ) := by
  induction l with
  | nil => rfl
  | cons a l ih => simp [evals, ih]

end Fm

theorem Valn.set_self {D : Type} (ρ : Valn D) (i : Nat) (d : D) : ρ.set i d i = d := by
  simp [Valn.set]

theorem Valn.set_ne {D : Type} (ρ : Valn D) {i j : Nat} (d : D) (h : j ≠ i) : ρ.set i d j = ρ j := by
  simp [Valn.set, h]

/-- Two quantifier blocks over the same variables agree when the bodies agree on corresponding
valuations, for any relation between valuations that survives binding the block's variables. -/
theorem quantVal_rel {F D : Type} (M : Str F D) (q : QKind) (R : Valn D → Valn D → Prop)
    (vs : List Var) (P Q : Valn D → Prop)
    (hR : ∀ v ∈ vs, ∀ ρ ρ' d, R ρ ρ' → R (ρ.set v.id d) (ρ'.set v.id d))
    (hPQ : ∀ ρ ρ', R ρ ρ' → (P ρ ↔ Q ρ')) :
    ∀ ρ ρ', R ρ ρ' → (quantVal M q vs P ρ ↔ quantVal M q vs Q ρ') := by
  induction vs with
  | nil => intro ρ ρ' h; exact hPQ ρ ρ' h
  | cons v vs ih =>
    intro ρ ρ' h
    have ih' := ih (fun w hw => hR w (List.mem_cons_of_mem _ hw))
    cases q with
    | all =>
      constructor
      · intro H d hd
        exact (ih' _ _ (hR v (List.mem_cons_self) ρ ρ' d h)).1 (H d hd)
      · intro H d hd
        exact (ih' _ _ (hR v (List.mem_cons_self) ρ ρ' d h)).2 (H d hd)
    | ex =>
      constructor
      · rintro ⟨d, hd, H⟩
        exact ⟨d, hd, (ih' _ _ (hR v (List.mem_cons_self) ρ ρ' d h)).1 H⟩
      · rintro ⟨d, hd, H⟩
        exact ⟨d, hd, (ih' _ _ (hR v (List.mem_cons_self) ρ ρ' d h)).2 H⟩

/-- The relational form: at each step the relation may depend on how many variables are bound. -/
theorem quantVal_agree {F D : Type} (M : Str F D) (q : QKind) (P Q : Valn D → Prop) :
    ∀ (vs : List Var) (S : Nat → Prop) (ρ ρ' : Valn D), (∀ i, S i → ρ i = ρ' i) →
      (∀ σ σ' : Valn D, (∀ i, (S i ∨ i ∈ vs.map Var.id) → σ i = σ' i) → (P σ ↔ Q σ')) →
      (quantVal M q vs P ρ ↔ quantVal M q vs Q ρ') := by
  intro vs
  induction vs with
  | nil => intro S ρ ρ' h hPQ; exact hPQ ρ ρ' (fun i hi => h i (by simpa using hi))
  | cons v vs ih =>
    intro S ρ ρ' h hPQ
    have key : ∀ d, quantVal M q vs P (ρ.set v.id d) ↔ quantVal M q vs Q (ρ'.set v.id d) := by
      intro d
      apply ih (fun i => S i ∨ i = v.id)
      · intro i hi
        by_cases hiv : i = v.id
        · subst hiv; simp [Valn.set]
        · rw [Valn.set_ne _ _ hiv, Valn.set_ne _ _ hiv]
          exact h i (by rcases hi with hi | hi; exact hi; exact absurd hi hiv)
      · intro σ σ' hσ
        apply hPQ
        intro i hi
        apply hσ
        simp only [List.map_cons, List.mem_cons] at hi
        rcases hi with hi | hi | hi
        · exact Or.inl (Or.inl hi)
        · exact Or.inl (Or.inr hi)
        · exact Or.inr hi
    cases q with
    | all => exact forall_congr' (fun d => imp_congr_right (fun _ => key d))
    | ex => exact exists_congr (fun d => and_congr_right (fun _ => key d))

namespace Fm
variable {F D : Type}

/-- The value of a formula depends only on its free variables. -/
theorem eval_agree_aux (M : Str F D) (f : Fm F) :
    ∀ (bs : List Nat) (ρ ρ' : Valn D), (∀ v ∈ freeIn bs f, ρ v.id = ρ' v.id) →
      (∀ i ∈ bs, ρ i = ρ' i) → eval M ρ f = eval M ρ' f := by
  induction f using Fm.ind with
  | hvar v =>
    intro bs ρ ρ' h hb
    simp only [eval]
    by_cases hv : v.id ∈ bs
    · exact hb _ hv
    · exact h v (by simp [freeIn, hv])
  | happ f args ih =>
    intro bs ρ ρ' h hb
    simp only [eval, evals_eq]
    congr 1
    apply List.map_congr_left
    intro a ha
    apply ih a ha bs ρ ρ' _ hb
    intro v hv
    apply h
    simp only [freeIn, freeIns_eq, List.mem_flatMap]
    exact ⟨a, ha, hv⟩
  | hquant q vs b ih =>
    intro bs ρ ρ' h hb
    simp only [eval]
    congr 1
    apply propext
    apply quantVal_agree M q _ _ vs
      (fun i => i ∈ bs ∨ ∃ v ∈ freeIn (bs ++ vs.map Var.id) b, v.id = i)
    · intro i hi
      rcases hi with hi | ⟨v, hv, rfl⟩
      · exact hb i hi
      · exact h v (by simpa [freeIn] using hv)
    · intro σ σ' hσ
      rw [ih (bs ++ vs.map Var.id) σ σ']
      · intro v hv; exact hσ _ (Or.inl (Or.inr ⟨v, hv, rfl⟩))
      · intro i hi
        rcases List.mem_append.1 hi with hi | hi
        · exact hσ _ (Or.inl (Or.inl hi))
        · exact hσ _ (Or.inr hi)

theorem eval_agree (M : Str F D) (f : Fm F) (ρ ρ' : Valn D)
    (h : ∀ v ∈ free f, ρ v.id = ρ' v.id) : eval M ρ f = eval M ρ' f :=
  eval_agree_aux M f [] ρ ρ' h (by simp)

mutual
theorem freeIn_sub_vars (bs : List Nat) : ∀ (f : Fm F) (v : Var), v ∈ freeIn bs f → v ∈ vars f
  | var w, v, h => by
    simp only [freeIn] at h; split at h <;> simp_all [vars]
  | app g args, v, h => by
    simp only [freeIn] at h; simp only [vars]; exact freeIns_sub_vars bs args v h
  | quant q vs b, v, h => by
    simp only [freeIn] at h; simp only [vars]; exact freeIn_sub_vars _ b v h
theorem freeIns_sub_vars (bs : List Nat) : ∀ (l : List (Fm F)) (v : Var), v ∈ freeIns bs l → v ∈ varss l
  | [], v, h => by simp [freeIns] at h
  | a :: as, v, h => by
    simp only [freeIns, List.mem_append] at h
    simp only [varss, List.mem_append]
    rcases h with h | h
    · exact Or.inl (freeIn_sub_vars bs a v h)
    · exact Or.inr (freeIns_sub_vars bs as v h)
end

theorem free_sub_vars (f : Fm F) (v : Var) (h : v ∈ free f) : v ∈ vars f := freeIn_sub_vars [] f v h

/-- Only variables occurring in the formula matter. -/
theorem eval_agree_vars (M : Str F D) (f : Fm F) (ρ ρ' : Valn D)
    (h : ∀ v ∈ vars f, ρ v.id = ρ' v.id) : eval M ρ f = eval M ρ' f :=
  eval_agree M f ρ ρ' (fun v hv => h v (free_sub_vars f v hv))

theorem freeIn_anti (f : Fm F) : ∀ (bs bs' : List Nat), (∀ i ∈ bs, i ∈ bs') →
    ∀ v ∈ freeIn bs' f, v ∈ freeIn bs f := by
  induction f using Fm.ind with
  | hvar w =>
    intro bs bs' h v hv
    by_cases h1 : w.id ∈ bs'
    · simp [freeIn, h1] at hv
    · have : w.id ∉ bs := fun h2 => h1 (h _ h2)
      simp [freeIn, h1] at hv; simp [freeIn, this, hv]
  | happ g args ih =>
    intro bs bs' h v hv
    simp only [freeIn, freeIns_eq, List.mem_flatMap] at hv ⊢
    obtain ⟨a, ha, hv⟩ := hv
    exact ⟨a, ha, ih a ha bs bs' h v hv⟩
  | hquant q vs b ih =>
    intro bs bs' h v hv
    simp only [freeIn] at hv ⊢
    refine ih _ _ ?_ v hv
    intro i hi
    rcases List.mem_append.1 hi with hi | hi
    · exact List.mem_append_left _ (h i hi)
    · exact List.mem_append_right _ hi

end Fm
end CV
