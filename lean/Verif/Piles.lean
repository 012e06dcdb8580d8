import Verif.Iterators
/-
Facts on the pile loop of `Verif/Iterators.lean` for iterators without a state: what a run yields is exactly
what can be reached from the formulas put on the pile.
-/
namespace CV
variable {F U P : Type}

/-- What can be reached from a formula: the results pushed by visiting it, and what can be reached from the
formulas pushed by visiting it. -/
inductive Reach (it : FIter U F P Unit) : Fm F → P → U → Prop
  | res {f p u} (h : Content.result u ∈ (it.visit () f p).2) : Reach it f p u
  | step {f p g q u} (h : Content.next g q ∈ (it.visit () f p).2) (hr : Reach it g q u) : Reach it f p u

/-- The same for an element of the pile. -/
def ReachC (it : FIter U F P Unit) : Content U F P → U → Prop
  | .result u, v => u = v
  | .next f p, v => Reach it f p v

theorem reach_iff (it : FIter U F P Unit) (f : Fm F) (p : P) (u : U) :
    Reach it f p u ↔ ∃ c ∈ (it.visit () f p).2, ReachC it c u := by
  constructor
  · intro h
    cases h with
    | res h => exact ⟨_, h, rfl⟩
    | step h hr => exact ⟨_, h, hr⟩
  · rintro ⟨c, hc, h⟩
    cases c with
    | result v => cases h; exact .res hc
    | next g q => exact .step hc h

/-- A finished run yields exactly what can be reached. -/
theorem runPile_mem (it : FIter U F P Unit) (u : U) :
    ∀ (n : Nat) (π : List (Content U F P)) (l : List U), runPile it n () π = some l →
      (u ∈ l ↔ ∃ c ∈ π, ReachC it c u) := by
  intro n
  induction n with
  | zero =>
    intro π l h
    cases π with
    | nil => simp [runPile] at h; subst h; simp
    | cons c π => simp [runPile] at h
  | succ n ih =>
    intro π l h
    cases π with
    | nil => simp [runPile] at h; subst h; simp
    | cons c π =>
      cases c with
      | result v =>
        simp only [runPile, Option.map_eq_some_iff] at h
        obtain ⟨l', hl, rfl⟩ := h
        simp only [List.mem_cons, ih π l' hl, exists_eq_or_imp, ReachC]
        constructor
        · rintro (h | h)
          · exact .inl h.symm
          · exact .inr h
        · rintro (h | h)
          · exact .inl h.symm
          · exact .inr h
      | next f p =>
        have h' : runPile it n () ((it.visit () f p).2.reverse ++ π) = some l := by
          simpa [runPile] using h
        rw [ih _ l h']
        simp only [List.mem_append, List.mem_reverse, List.mem_cons, exists_eq_or_imp, ReachC]
        rw [reach_iff]
        constructor
        · rintro ⟨c, hc | hc, h⟩
          · exact .inl ⟨c, hc, h⟩
          · exact .inr ⟨c, hc, h⟩
        · rintro (⟨c, hc, h⟩ | ⟨c, hc, h⟩)
          · exact ⟨c, .inl hc, h⟩
          · exact ⟨c, .inr hc, h⟩

theorem runPile_one (it : FIter U F P Unit) (u : U) (n : Nat) (f : Fm F) (p : P) (l : List U)
    (h : runPile it n () [.next f p] = some l) : u ∈ l ↔ Reach it f p u := by
  rw [runPile_mem it u n _ l h]; simp [ReachC]

theorem runPile_mono (it : FIter U F P Unit) :
    ∀ (n m : Nat) (π : List (Content U F P)) (l : List U), runPile it n () π = some l → n ≤ m →
      runPile it m () π = some l := by
  intro n
  induction n with
  | zero =>
    intro m π l h _
    cases π with
    | nil => cases m <;> simpa [runPile] using h
    | cons c π => simp [runPile] at h
  | succ n ih =>
    intro m π l h hm
    cases π with
    | nil => cases m <;> simpa [runPile] using h
    | cons c π =>
      obtain ⟨m, rfl⟩ : ∃ k, m = k + 1 := ⟨m - 1, by omega⟩
      cases c with
      | result v =>
        simp only [runPile, Option.map_eq_some_iff] at h ⊢
        obtain ⟨l', hl, rfl⟩ := h
        exact ⟨l', ih m π l' hl (by omega), rfl⟩
      | next f p =>
        simp only [runPile] at h ⊢
        exact ih m _ l h (by omega)

theorem runPile_append (it : FIter U F P Unit) :
    ∀ (n m : Nat) (π π' : List (Content U F P)) (l l' : List U), runPile it n () π = some l →
      runPile it m () π' = some l' → runPile it (n + m) () (π ++ π') = some (l ++ l') := by
  intro n
  induction n with
  | zero =>
    intro m π π' l l' h h'
    cases π with
    | nil => simp [runPile] at h; subst h; simpa using h'
    | cons c π => simp [runPile] at h
  | succ n ih =>
    intro m π π' l l' h h'
    cases π with
    | nil =>
      simp [runPile] at h; subst h
      exact runPile_mono it m _ π' l' h' (by omega)
    | cons c π =>
      have e : n + 1 + m = n + m + 1 := by omega
      rw [e, List.cons_append]
      cases c with
      | result v =>
        simp only [runPile, Option.map_eq_some_iff] at h ⊢
        obtain ⟨l₀, hl, rfl⟩ := h
        exact ⟨_, ih m π π' l₀ l' hl h', rfl⟩
      | next f p =>
        simp only [runPile] at h ⊢
        rw [← List.append_assoc]
        exact ih m _ π' l l' h h'

/-- The run on one element of the pile. -/
def Finishes (it : FIter U F P Unit) (c : Content U F P) : Prop := ∃ n l, runPile it n () [c] = some l

theorem finishes_pile (it : FIter U F P Unit) (π : List (Content U F P)) (h : ∀ c ∈ π, Finishes it c) :
    ∃ n l, runPile it n () π = some l := by
  induction π with
  | nil => exact ⟨0, [], rfl⟩
  | cons c π ih =>
    obtain ⟨n, l, h1⟩ := h c (List.mem_cons_self ..)
    obtain ⟨m, l', h2⟩ := ih (fun c' hc => h c' (List.mem_cons_of_mem _ hc))
    exact ⟨n + m, l ++ l', by simpa using runPile_append it n m [c] π l l' h1 h2⟩

theorem finishes_result (it : FIter U F P Unit) (u : U) : Finishes it (.result u) := ⟨1, [u], by simp [runPile]⟩

theorem finishes_next (it : FIter U F P Unit) (f : Fm F) (p : P)
    (h : ∀ g q, Content.next g q ∈ (it.visit () f p).2 → Finishes it (.next g q)) : Finishes it (.next f p) := by
  obtain ⟨n, l, hl⟩ := finishes_pile it (it.visit () f p).2.reverse (by
    intro c hc
    cases c with
    | result u => exact finishes_result it u
    | next g q => exact h g q (by simpa using hc))
  exact ⟨n + 1, l, by simpa [runPile] using hl⟩

theorem runPile_split (it : FIter U F P Unit) :
    ∀ (n : Nat) (π π' : List (Content U F P)) (l : List U), runPile it n () (π ++ π') = some l →
      ∃ a b, runPile it n () π = some a ∧ runPile it n () π' = some b ∧ l = a ++ b := by
  intro n
  induction n with
  | zero =>
    intro π π' l h
    cases π with
    | nil => exact ⟨[], l, rfl, by simpa using h, rfl⟩
    | cons c π => simp [runPile] at h
  | succ n ih =>
    intro π π' l h
    cases π with
    | nil => exact ⟨[], l, rfl, by simpa using h, rfl⟩
    | cons c π =>
      cases c with
      | result v =>
        simp only [List.cons_append, runPile, Option.map_eq_some_iff] at h ⊢
        obtain ⟨l₀, hl, rfl⟩ := h
        obtain ⟨a, b, h1, h2, rfl⟩ := ih π π' l₀ hl
        exact ⟨v :: a, b, ⟨a, h1, rfl⟩, runPile_mono it n _ π' b h2 (by omega), rfl⟩
      | next f p =>
        simp only [List.cons_append, runPile] at h ⊢
        rw [← List.append_assoc] at h
        obtain ⟨a, b, h1, h2, rfl⟩ := ih _ π' l h
        exact ⟨a, b, h1, runPile_mono it n _ π' b h2 (by omega), rfl⟩

theorem runPile_elem (it : FIter U F P Unit) (n : Nat) (π : List (Content U F P)) (l : List U)
    (h : runPile it n () π = some l) (c : Content U F P) (hc : c ∈ π) : ∃ a, runPile it n () [c] = some a := by
  obtain ⟨s, t, rfl⟩ := List.append_of_mem hc
  obtain ⟨_, b, _, h2, _⟩ := runPile_split it n s (c :: t) l h
  obtain ⟨a, _, h3, _⟩ := runPile_split it n [c] t b (by simpa using h2)
  exact ⟨a, h3⟩

/-- A run on a formula finishes strictly later than the runs on the formulas it pushes. -/
theorem runPile_child (it : FIter U F P Unit) (n : Nat) (f : Fm F) (p : P) (l : List U)
    (h : runPile it n () [.next f p] = some l) {g : Fm F} {q : P}
    (hg : Content.next g q ∈ (it.visit () f p).2) : ∃ m a, m + 1 = n ∧ runPile it m () [.next g q] = some a := by
  cases n with
  | zero => simp [runPile] at h
  | succ n =>
    simp only [runPile] at h
    obtain ⟨a, ha⟩ := runPile_elem it n _ l h (.next g q) (by simp [hg])
    exact ⟨n, a, rfl, ha⟩

/-- If infinitely many visits can be chained, no amount of fuel is enough. -/
theorem runPile_diverges (it : FIter U F P Unit) (I : Fm F → P → Prop)
    (hI : ∀ f p, I f p → ∃ g q, Content.next g q ∈ (it.visit () f p).2 ∧ I g q) :
    ∀ (n : Nat) (f : Fm F) (p : P), I f p → runPile it n () [.next f p] = none := by
  intro n
  induction n with
  | zero => intro f p _; rfl
  | succ n ih =>
    intro f p h
    obtain ⟨g, q, hg, hq⟩ := hI f p h
    cases hr : runPile it (n + 1) () [.next f p] with
    | none => rfl
    | some l =>
      obtain ⟨m, a, hm, ha⟩ := runPile_child it _ f p l hr hg
      obtain rfl : m = n := by omega
      rw [ih g q hq] at ha; cases ha

end CV
