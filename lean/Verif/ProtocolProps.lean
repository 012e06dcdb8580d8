import Verif.CellProps
/-
Properties C47 (building a protocol).
-/
namespace CV

/-- **C47.** Building a protocol fails exactly when no step is named `init`; otherwise the first step
is the first `init` step given, and the steps are a rearrangement of the given ones (each exactly as
often as given), the cells and orders being untouched. -/
theorem C47_new (steps : List Step) (cells : List Cell) (ord : List Ordering) :
    (Protocol.new steps cells ord = none ↔ ∀ s ∈ steps, s.name ≠ "init") ∧
    ∀ p, Protocol.new steps cells ord = some p →
      (∃ i, p.init = some i ∧ steps.find? (fun s => s.name == "init") = some i) ∧
      p.steps.Perm steps ∧ p.cells = cells ∧ p.ordering = ord := by
  unfold Protocol.new
  cases hi : steps.findIdx? (fun s => s.name == "init") with
  | none =>
    simp only [Option.bind_none, reduceCtorEq, false_implies, implies_true, and_true, true_iff]
    intro s hs
    have := (List.findIdx?_eq_none_iff.1 hi) s hs
    simpa using this
  | some i =>
    rw [List.findIdx?_eq_some_iff_getElem] at hi
    obtain ⟨hlt, hin, hbefore⟩ := hi
    cases steps with
    | nil => simp at hlt
    | cons x xs =>
      have e2 : (x :: xs)[i]? = some (x :: xs)[i] := List.getElem?_eq_getElem hlt
      simp only [Option.bind_some, List.getElem?_cons_zero, e2]
      refine ⟨?_, ?_⟩
      · simp only [reduceCtorEq, false_iff]
        intro H
        have := H _ (List.getElem_mem hlt)
        simp at hin
        exact this hin
      · intro p hp
        cases hp
        refine ⟨⟨(x :: xs)[i], ?_, ?_⟩, ?_, rfl, rfl⟩
        · simp only [Protocol.init]
          cases i with
          | zero => simp
          | succ i => simp
        · rw [List.find?_eq_some_iff_getElem]
          refine ⟨hin, i, hlt, rfl, ?_⟩
          intro j hj
          simpa using hbefore j hj
        · cases i with
          | zero => simp
          | succ i =>
            simp only [List.set_cons_zero, List.set_cons_succ, List.getElem_cons_succ]
            have hlt' : i < xs.length := by simpa using hlt
            have h1 : xs.set i x = xs.take i ++ x :: xs.drop (i + 1) := by
              rw [List.set_eq_take_append_cons_drop, if_pos hlt']
            have h2 : xs = xs.take i ++ xs[i] :: xs.drop (i + 1) := by
              rw [List.getElem_cons_drop, List.take_append_drop]
            rw [h1]
            conv => rhs; rw [h2]
            generalize xs.take i = a
            generalize xs.drop (i + 1) = b
            generalize xs[i] = y
            calc (y :: (a ++ x :: b)).Perm (y :: x :: (a ++ b)) := (List.perm_middle).cons y
              _ |>.Perm (x :: y :: (a ++ b)) := List.Perm.swap x y _
              _ |>.Perm (x :: (a ++ y :: b)) := (List.perm_middle.symm).cons x

/-- C47 non-vacuity: the init step is moved from the last position to the front. -/
example : ∃ p, Protocol.new [cxA, cxB, cxInit] [] [] = some p ∧ p.init = some cxInit := by
  refine ⟨⟨[cxInit, cxB, cxA], [], []⟩, ?_, rfl⟩
  simp [Protocol.new, List.findIdx?, List.findIdx?.go, cxA, cxB, cxInit]

end CV
