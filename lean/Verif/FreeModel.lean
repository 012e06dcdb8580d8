import Verif.SearchSpec
set_option linter.unusedSimpArgs false
/-
A structure in which every symbol but the connectives, equality and the order builds a new value: used to
show that hypotheses are met and to give counterexamples. Nothing here models code.
-/
namespace CV
namespace Dep
variable {F : Type}

/-- Values: atoms, applications and truth values. -/
inductive Tm (F : Type)
  | atom (n : Nat)
  | node (f : F) (l : List (Tm F))
  | prop (p : Prop)

def Tm.truth : Tm F → Prop
  | .prop p => p
  | _ => False

def binary (R : Tm F → Tm F → Prop) : List (Tm F) → Tm F
  | [a, b] => .prop (R a b)
  | _ => .prop False

/-- The structure, for an order `lt` on time points; the symbols given by `rel` are read as relations. -/
def freeStr [DecidableEq F] (L : Lang F) (lt : Tm F → Tm F → Prop) (rel : F → Option (Tm F → Tm F → Prop)) : Str F (Tm F) where
  fn f l :=
    if f = L.eq then binary Eq l
    else if f = L.and then .prop (∀ d ∈ l, d.truth)
    else if f = L.or then .prop (∃ d ∈ l, d.truth)
    else if f = L.tru then .prop True
    else if f = L.lt then binary lt l
    else match rel f with
      | some R => binary R l
      | none => .node f l
  truth := Tm.truth
  ofProp := .prop
  truth_ofProp _ := Iff.rfl
  dom _ _ := True

/-- The logical symbols are five different ones. -/
structure Lang.Distinct (L : Lang F) : Prop where
  nodup : [L.eq, L.and, L.or, L.tru, L.lt].Nodup

section
variable [DecidableEq F] {L : Lang F} (lt : Tm F → Tm F → Prop) (rel : F → Option (Tm F → Tm F → Prop))

theorem freeStr_sem (hL : L.Distinct) : Sem L (freeStr L lt rel) := by
  have h := hL.nodup
  simp only [List.nodup_cons, List.mem_cons, List.not_mem_nil, or_false, not_or] at h
  obtain ⟨⟨h1, h2, h3, h4⟩, ⟨h5, h6, h7⟩, ⟨h8, h9⟩, h10, -⟩ := h
  refine ⟨fun a b => ?_, fun l => ?_, fun l => ?_, ?_⟩
  · simp [freeStr, binary, Tm.truth]
  · simp [freeStr, Ne.symm h1, Tm.truth]
  · simp [freeStr, Ne.symm h2, Ne.symm h5, Tm.truth]
  · simp [freeStr, Ne.symm h3, Ne.symm h6, Ne.symm h8, Tm.truth]

theorem freeStr_lt (hL : L.Distinct) (a b : Tm F) : Lt L (freeStr L lt rel) a b ↔ lt a b := by
  have h := hL.nodup
  simp only [List.nodup_cons, List.mem_cons, List.not_mem_nil, or_false, not_or] at h
  obtain ⟨⟨h1, h2, h3, h4⟩, ⟨h5, h6, h7⟩, ⟨h8, h9⟩, h10, -⟩ := h
  simp [Lt, freeStr, Ne.symm h4, Ne.symm h7, Ne.symm h9, Ne.symm h10, binary, Tm.truth]

/-- The symbols that build values. -/
def Builds (L : Lang F) (rel : F → Option (Tm F → Tm F → Prop)) (f : F) : Prop :=
  f ∉ [L.eq, L.and, L.or, L.tru, L.lt] ∧ rel f = none

theorem freeStr_fn {f : F} (hf : Builds L rel f) (l : List (Tm F)) : (freeStr L lt rel).fn f l = .node f l := by
  simp only [Builds, List.mem_cons, List.not_mem_nil, or_false, not_or] at hf
  obtain ⟨⟨h1, h2, h3, h4, h5⟩, h6⟩ := hf
  simp [freeStr, h1, h2, h3, h4, h5, h6]

theorem freeStr_rel {f : F} (hf : f ∉ [L.eq, L.and, L.or, L.tru, L.lt]) {R : Tm F → Tm F → Prop} (hR : rel f = some R)
    (a b : Tm F) : (freeStr L lt rel).truth ((freeStr L lt rel).fn f [a, b]) ↔ R a b := by
  simp only [List.mem_cons, List.not_mem_nil, or_false, not_or] at hf
  obtain ⟨h1, h2, h3, h4, h5⟩ := hf
  simp [freeStr, h1, h2, h3, h4, h5, hR, binary, Tm.truth]

theorem freeStr_injectiveOn : Str.InjectiveOn (freeStr L lt rel) (Builds L rel) := by
  intro f l l' hf _ h
  rw [freeStr_fn lt rel hf, freeStr_fn lt rel hf] at h
  injection h

theorem freeStr_clashFreeOn (S : F → Prop) (hS : ∀ f, S f → Builds L rel f) (f g : F) (as bs : List (Tm F))
    (hf : S f) (hg : S g) (h : (freeStr L lt rel).fn f as = (freeStr L lt rel).fn g bs) : f = g ∧ as.length = bs.length := by
  rw [freeStr_fn lt rel (hS f hf), freeStr_fn lt rel (hS g hg)] at h
  injection h with h1 h2
  exact ⟨h1, by rw [h2]⟩

end
end Dep
end CV
