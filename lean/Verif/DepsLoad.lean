import Verif.DepsProps
import Verif.LoadMain
/-
The steps of a loaded file and their instantiation (C29).
-/
namespace CV
namespace Dep
open Prs

/-- **C29 for loaded files.** The parameters of every step of an accepted file are numbered from `0`; hence
instantiating its message replaces parameter `k + 1` by argument `k`, and never replaces the first
parameter. -/
theorem C29_loaded (ord : List (String × Cache) → List (String × Cache)) (hord : ∀ l, (ord l).Perm l) (D : DEnv)
    (hD : D.Base) (fuel : Nat) (ig : Bool) (l : List Decl) (P : LProblem) (h : load ord fuel ig D l = .ok P) (s : LStep)
    (hs : s ∈ P.steps) (fn : PF) (args : List (Fm PF)) (hl : args.length = s.vars.length) :
    s.vars.map Var.id = List.range s.vars.length ∧
    (GStep.applyMessage ⟨fn, s.vars, s.condition, s.message⟩ args) = some (Subst.apply (fun v =>
      match v.id with
      | 0 => .var v
      | k + 1 => args[k]?.getD (.var v)) s.message) := by
  obtain ⟨_, _, _, as, h4, _⟩ := C54_steps_partial ord hord D hD fuel ig l P h
  obtain ⟨ps, d, _, hv, _⟩ := h4 s hs
  have hids : s.vars.map Var.id = List.range s.vars.length := by
    rw [hv]
    simp only [numbered, List.map_map, List.length_map, List.length_zipIdx]
    apply List.ext_getElem?
    intro i
    simp only [List.getElem?_map, List.getElem?_zipIdx]
    by_cases hi : i < ps.length
    · simp [List.getElem?_eq_getElem hi, List.getElem?_range hi]
    · rw [List.getElem?_eq_none (by omega), List.getElem?_eq_none (by simpa using hi)]
      rfl
  refine ⟨hids, ?_⟩
  have hl' : ((List.range s.vars.length).map (· + 1)).length = args.length := by simp [hl]
  unfold GStep.applyMessage
  rw [C01_apply_substitution _ _ hl']
  congr 1
  apply apply_congr
  intro v _
  rw [zip_get_spec _ _ hl']
  cases hv : v.id with
  | zero =>
    have : ((List.range s.vars.length).map (· + 1)).findIdx? (fun i => i == 0) = none := by
      rw [List.findIdx?_eq_none_iff]; simp
    simp only [this]
  | succ k =>
    simp only
    by_cases hk : k < s.vars.length
    · have : ((List.range s.vars.length).map (· + 1)).findIdx? (fun i => i == k + 1) = some k := by
        rw [List.findIdx?_eq_some_iff_getElem]
        refine ⟨by simpa using hk, by simp, ?_⟩
        intro j hj
        simp; omega
      simp only [this]
    · have : ((List.range s.vars.length).map (· + 1)).findIdx? (fun i => i == k + 1) = none := by
        rw [List.findIdx?_eq_none_iff]; simp; omega
      simp only [this]
      rw [List.getElem?_eq_none (by omega)]
      rfl

end Dep
end CV

namespace CV
open Prs
/-- An accepted file with a step that has a parameter. -/
example : ∃ P, load id 6 false (env0 true) exFile = .ok P ∧ ∃ s ∈ P.steps, s.vars.map Var.id = [0] := by
  exact ⟨_, rfl, _, List.mem_cons_of_mem _ (List.mem_cons_self ..), rfl⟩
end CV
