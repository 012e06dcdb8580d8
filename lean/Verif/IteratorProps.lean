import Verif.Iterators
/-
Property C04: the formula iterators enumerate exactly what they should.
-/
namespace CV
variable {F U P S : Type}
open Fm

/-- Work left on a pile. -/
def meas : List (Content U F P) → Nat
  | [] => 0
  | .result _ :: π => 1 + meas π
  | .next f _ :: π => 2 * f.size + meas π

theorem meas_append (a b : List (Content U F P)) : meas (a ++ b) = meas a + meas b := by
  induction a with
  | nil => simp [meas]
  | cons c a ih => cases c <;> simp [meas, ih] <;> omega

theorem meas_reverse (a : List (Content U F P)) : meas a.reverse = meas a := by
  induction a with
  | nil => rfl
  | cons c a ih => rw [List.reverse_cons, meas_append, ih]; cases c <;> simp [meas] <;> omega

theorem meas_children (l : List (Fm F)) (p : P) :
    meas (l.map (fun a => (Content.next a p : Content U F P))) = 2 * sizes l := by
  induction l with
  | nil => rfl
  | cons a l ih => simp [meas, sizes, ih]; omega

/-- What a pile will yield, given what each entry yields. -/
def semPile (sem : Fm F → P → List U) : List (Content U F P) → List U
  | [] => []
  | .result u :: π => u :: semPile sem π
  | .next f p :: π => sem f p ++ semPile sem π

theorem semPile_append (sem : Fm F → P → List U) (a b : List (Content U F P)) :
    semPile sem (a ++ b) = semPile sem a ++ semPile sem b := by
  induction a with
  | nil => rfl
  | cons c a ih => cases c <;> simp [semPile, ih]

theorem semPile_reverse (sem : Fm F → P → List U) (a : List (Content U F P)) :
    (semPile sem a.reverse).Perm (semPile sem a) := by
  induction a with
  | nil => exact List.Perm.refl _
  | cons c a ih =>
    rw [List.reverse_cons, semPile_append]
    cases c with
    | result u =>
      simp only [semPile]
      exact (List.perm_append_comm).trans (by simpa using ih)
    | next f p =>
      simp only [semPile, List.append_nil]
      exact (List.perm_append_comm).trans (List.Perm.append_left _ ih)

theorem semPile_children (sem : Fm F → P → List U) (l : List (Fm F)) (p : P) :
    semPile sem (l.map (fun a => (Content.next a p : Content U F P)))
      = l.flatMap (fun a => sem a p) := by
  induction l with
  | nil => rfl
  | cons a l ih => simp [semPile, ih]

/-- Generic correctness of the pile loop. -/
theorem runPile_spec (it : FIter U F P S) (Inv : S → List (Content U F P) → Prop)
    (sem : S → Fm F → P → List U)
    (hres : ∀ s u π, Inv s (.result u :: π) → Inv s π)
    (hnext : ∀ s f p π, Inv s (.next f p :: π) →
      Inv (it.visit s f p).1 ((it.visit s f p).2.reverse ++ π) ∧
      meas (it.visit s f p).2 < 2 * f.size ∧
      (semPile (sem (it.visit s f p).1) ((it.visit s f p).2 ++ π)).Perm
        (sem s f p ++ semPile (sem s) π)) :
    ∀ (n : Nat) (s : S) (π : List (Content U F P)), meas π ≤ n → Inv s π →
      ∃ l, runPile it n s π = some l ∧ l.Perm (semPile (sem s) π) := by
  intro n
  induction n with
  | zero =>
    intro s π hm _
    cases π with
    | nil => exact ⟨[], by simp [runPile], List.Perm.refl _⟩
    | cons c π =>
      cases c with
      | result u => simp [meas] at hm
      | next f p => have := f.size_pos; simp [meas] at hm; omega
  | succ n ih =>
    intro s π hm hI
    cases π with
    | nil => exact ⟨[], by simp [runPile], List.Perm.refl _⟩
    | cons c π =>
      cases c with
      | result u =>
        obtain ⟨l, hl, hp⟩ := ih s π (by simp [meas] at hm; omega) (hres s u π hI)
        exact ⟨u :: l, by simp [runPile, hl], by simpa [semPile] using hp⟩
      | next f p =>
        obtain ⟨h1, h2, h3⟩ := hnext s f p π hI
        obtain ⟨l, hl, hp⟩ := ih _ _ (by
          rw [meas_append, meas_reverse]; simp [meas] at hm; omega) h1
        refine ⟨l, by simpa [runPile] using hl, ?_⟩
        refine hp.trans (List.Perm.trans ?_ h3)
        rw [semPile_append, semPile_append]
        exact List.Perm.append_right _ (semPile_reverse _ _)

/-- **C04.** Enumerating used variables terminates and yields exactly the variable occurrences
(binder lists do not count), each as often as it occurs. -/
theorem C04_used_vars (f : Fm F) :
    ∃ n, ∀ m, n ≤ m → ∃ l, usedVars m f = some l ∧ l.Perm f.vars := by
  refine ⟨2 * f.size, fun m hm => ?_⟩
  obtain ⟨l, h1, h2⟩ := runPile_spec (usedVarIter (F := F)) (fun _ _ => True)
    (fun _ f _ => f.vars) (fun _ _ _ _ => trivial) (by
      intro s f p π _
      refine ⟨trivial, ?_, ?_⟩
      · cases f with
        | var v => simp [usedVarIter, args, meas, size]
        | app g as => simp [usedVarIter, args, meas_children, size] <;> omega
        | quant q vs b => simp [usedVarIter, args, meas, size] <;> omega
      · cases f with
        | var v => simp [usedVarIter, args, semPile, vars]
        | app g as => simp [usedVarIter, args, semPile_append, semPile_children, vars, varss_eq]
        | quant q vs b => simp [usedVarIter, args, semPile, vars])
    m () [.next f ()] (by simpa [meas] using hm) trivial
  exact ⟨l, h1, by simpa [semPile] using h2⟩

/-- **C04.** The several-formulas entry point yields the occurrences of all of them. -/
theorem C04_used_vars_with (fs : List (Fm F)) :
    ∃ n, ∀ m, n ≤ m → ∃ l, usedVarsWith m fs = some l ∧ l.Perm (fs.flatMap vars) := by
  refine ⟨2 * sizes fs, fun m hm => ?_⟩
  obtain ⟨l, h1, h2⟩ := runPile_spec (usedVarIter (F := F)) (fun _ _ => True)
    (fun _ f _ => f.vars) (fun _ _ _ _ => trivial) (by
      intro s f p π _
      refine ⟨trivial, ?_, ?_⟩
      · cases f with
        | var v => simp [usedVarIter, args, meas, size]
        | app g as => simp [usedVarIter, args, meas_children, size] <;> omega
        | quant q vs b => simp [usedVarIter, args, meas, size] <;> omega
      · cases f with
        | var v => simp [usedVarIter, args, semPile, vars]
        | app g as => simp [usedVarIter, args, semPile_append, semPile_children, vars, varss_eq]
        | quant q vs b => simp [usedVarIter, args, semPile, vars])
    m () ((fs.map (fun f => Content.next f ())).reverse)
    (by rw [meas_reverse, meas_children]; exact hm) trivial
  refine ⟨l, h1, h2.trans ((semPile_reverse _ _).trans ?_)⟩
  rw [semPile_children]

/-- **C04.** Enumerating all terms yields exactly the subterms, each as often as it occurs. -/
theorem C04_all_terms (f : Fm F) :
    ∃ n, ∀ m, n ≤ m → ∃ l, allTerms m f = some l ∧ l.Perm f.subs := by
  refine ⟨2 * f.size, fun m hm => ?_⟩
  obtain ⟨l, h1, h2⟩ := runPile_spec (allTermsIter (F := F)) (fun _ _ => True)
    (fun _ f _ => f.subs) (fun _ _ _ _ => trivial) (by
      intro s f p π _
      refine ⟨trivial, ?_, ?_⟩
      · cases f with
        | var v => simp [allTermsIter, args, meas, size]
        | app g as => simp [allTermsIter, args, meas, meas_children, size] <;> omega
        | quant q vs b => simp [allTermsIter, args, meas, size] <;> omega
      · cases f with
        | var v => simp [allTermsIter, args, semPile, subs]
        | app g as =>
          simp [allTermsIter, args, semPile, semPile_append, semPile_children, subs, subss_eq]
        | quant q vs b => simp [allTermsIter, args, semPile, subs])
    m () [.next f ()] (by simpa [meas] using hm) trivial
  exact ⟨l, h1, by simpa [semPile] using h2⟩

mutual
/-- SPECIFICATION. Depth of every subformula occurrence, starting at `d`. -/
def depthsFrom (d : Nat) : Fm F → List Nat
  | .var _ => [d]
  | .app _ as => d :: depthsFroms (d + 1) as
  | .quant _ _ b => d :: depthsFrom (d + 1) b
def depthsFroms (d : Nat) : List (Fm F) → List Nat
  | [] => []
  | a :: as => depthsFrom d a ++ depthsFroms d as
end

theorem depthsFroms_eq (d : Nat) (l : List (Fm F)) :
    depthsFroms d l = l.flatMap (depthsFrom d) := by
  induction l with
  | nil => rfl
  | cons a l ih => simp [depthsFroms, ih]

/-- **C04.** Depth enumeration yields one depth per subformula occurrence. -/
theorem C04_depths (d : Nat) (f : Fm F) :
    ∃ n, ∀ m, n ≤ m → ∃ l, depths m d f = some l ∧ l.Perm (depthsFrom d f) := by
  refine ⟨2 * f.size, fun m hm => ?_⟩
  obtain ⟨l, h1, h2⟩ := runPile_spec (depthIter (F := F)) (fun _ _ => True)
    (fun _ f p => depthsFrom p f) (fun _ _ _ _ => trivial) (by
      intro s f p π _
      refine ⟨trivial, ?_, ?_⟩
      · cases f with
        | var v => simp [depthIter, args, meas, size]
        | app g as => simp [depthIter, args, meas, meas_children, size] <;> omega
        | quant q vs b => simp [depthIter, args, meas, size] <;> omega
      · cases f with
        | var v => simp [depthIter, args, semPile, depthsFrom]
        | app g as =>
          simp [depthIter, args, semPile, semPile_append, semPile_children, depthsFrom,
            depthsFroms_eq]
        | quant q vs b => simp [depthIter, args, semPile, depthsFrom])
    m () [.next f d] (by simpa [meas] using hm) trivial
  exact ⟨l, h1, by simpa [semPile] using h2⟩

/-- Passing values never exceed `b` and never grow going down the pile. -/
def PassOK : Nat → List (Content Var F Nat) → Prop
  | _, [] => True
  | b, .result _ :: π => PassOK b π
  | b, .next _ p :: π => p ≤ b ∧ PassOK p π

theorem PassOK.mono {b b' : Nat} {π : List (Content Var F Nat)} (h : PassOK b π) (hb : b ≤ b') :
    PassOK b' π := by
  induction π with
  | nil => trivial
  | cons c π ih =>
    cases c with
    | result u => exact ih h
    | next f p => exact ⟨Nat.le_trans h.1 hb, h.2⟩

theorem PassOK.children {p : Nat} {π : List (Content Var F Nat)} (h : PassOK p π)
    (l : List (Fm F)) : PassOK p (l.map (fun a => Content.next a p) ++ π) := by
  induction l with
  | nil => exact h
  | cons a l ih => exact ⟨Nat.le_refl _, ih⟩

theorem semPile_take {b : Nat} {π : List (Content Var F Nat)} (h : PassOK b π) (s s' : List Var)
    (hs : s.take b = s'.take b) :
    semPile (fun f p => freeIn ((s.take p).map Var.id) f) π
      = semPile (fun f p => freeIn ((s'.take p).map Var.id) f) π := by
  induction π generalizing b with
  | nil => rfl
  | cons c π ih =>
    cases c with
    | result u => simp only [semPile]; rw [ih h hs]
    | next f p =>
      simp only [semPile]
      have hp : s.take p = s'.take p := by
        have e : ∀ t : List Var, t.take p = (t.take b).take p := by
          intro t; rw [List.take_take]; congr 1; exact (Nat.min_eq_left h.1).symm
        rw [e s, e s', hs]
      rw [hp, ih h.2 hp]

theorem free_vars_run (f : Fm F) (m : Nat) (hm : 2 * f.size ≤ m) :
    ∃ l, freeVars m f = some l ∧ l.Perm f.free := by
  obtain ⟨l, h1, h2⟩ := runPile_spec (freeVarIter (F := F))
    (fun s π => PassOK s.length π)
    (fun s f p => freeIn ((s.take p).map Var.id) f) (fun _ _ _ h => h) (by
      intro s f p π hI
      obtain ⟨hp, hI⟩ := hI
      have hlen : (s.take p).length = p := by simp; omega
      cases f with
      | var v =>
        simp only [freeVarIter]
        have key := semPile_take (b := p) hI (s.take p) s (by rw [List.take_take, Nat.min_self])
        by_cases hv : v.id ∈ (s.take p).map Var.id
        · have hc : ((s.take p).map Var.id).contains v.id = true := by simpa using hv
          simp only [hc, if_true]
          refine ⟨by simpa [hlen] using hI, by simp [meas, size], ?_⟩
          simp only [List.nil_append, key, freeIn, hv, if_true]
          exact List.Perm.refl _
        · have hc : ((s.take p).map Var.id).contains v.id = false := by
            simpa using hv
          simp only [hc]
          refine ⟨by simpa [hlen, PassOK] using hI, by simp [meas, size], ?_⟩
          simp only [Bool.false_eq_true, if_false, List.cons_append, List.nil_append, semPile, key, freeIn, hv]
          exact List.Perm.refl _
      | app g as =>
        simp only [freeVarIter]
        have key := semPile_take (b := p) hI (s.take p) s (by rw [List.take_take, Nat.min_self])
        refine ⟨?_, by rw [meas_children]; simp [size] <;> omega, ?_⟩
        · rw [hlen, ← List.map_reverse]; exact hI.children _
        · rw [semPile_append, key, semPile_children]
          simp only [freeIn, freeIns_eq, List.take_take, Nat.min_self]
          exact List.Perm.refl _
      | quant q vs b =>
        simp only [freeVarIter]
        have hlen2 : (s.take p ++ vs).length = p + vs.length := by simp; omega
        have key := semPile_take (b := p) hI (s.take p ++ vs) s (by
          rw [List.take_append_of_le_length (by omega), List.take_take, Nat.min_self])
        refine ⟨?_, by simp [meas, size] <;> omega, ?_⟩
        · simp only [List.reverse_cons, List.reverse_nil, List.nil_append, List.cons_append]
          exact ⟨Nat.le_refl _, hI.mono (by omega)⟩
        · simp only [List.cons_append, List.nil_append, semPile, key, freeIn, List.take_length,
            List.map_append]
          exact List.Perm.refl _)
    m [] [.next f 0] (by simpa [meas] using hm) ⟨Nat.le_refl _, trivial⟩
  exact ⟨l, h1, by simpa [semPile, Fm.free] using h2⟩

/-- SPECIFICATION. `v` has an occurrence in the formula that is not under a quantifier binding
(a variable with the number of) `v`. Independent of the iterator and of `free`. -/
inductive OccursFree (v : Var) : Fm F → Prop
  | var : OccursFree v (.var v)
  | app {g args a} : a ∈ args → OccursFree v a → OccursFree v (.app g args)
  | quant {q vs b} : v.id ∉ vs.map Var.id → OccursFree v b → OccursFree v (.quant q vs b)

theorem mem_freeIn (v : Var) (f : Fm F) :
    ∀ bs, v ∈ freeIn bs f ↔ v.id ∉ bs ∧ OccursFree v f := by
  induction f using Fm.ind with
  | hvar w =>
    intro bs
    simp only [freeIn]
    constructor
    · intro h
      split at h
      · cases h
      · simp only [List.mem_singleton] at h; subst h; exact ⟨by assumption, .var⟩
    · rintro ⟨h, ho⟩; cases ho; simp [h]
  | happ g args ih =>
    intro bs
    simp only [freeIn, freeIns_eq, List.mem_flatMap]
    constructor
    · rintro ⟨a, ha, hv⟩
      have := (ih a ha bs).1 hv
      exact ⟨this.1, .app ha this.2⟩
    · rintro ⟨h, ho⟩
      cases ho with
      | app ha ho => exact ⟨_, ha, (ih _ ha bs).2 ⟨h, ho⟩⟩
  | hquant q vs b ih =>
    intro bs
    simp only [freeIn, ih, List.mem_append, not_or]
    constructor
    · rintro ⟨⟨h1, h2⟩, h3⟩; exact ⟨h1, .quant h2 h3⟩
    · rintro ⟨h, ho⟩
      cases ho with
      | quant h2 h3 => exact ⟨⟨h, h2⟩, h3⟩

/-- **C04.** Enumerating free variables terminates and yields a variable exactly when it has an
occurrence that no enclosing quantifier binds, whatever the shadowing. -/
theorem C04_free_vars (f : Fm F) :
    ∃ n, ∀ m, n ≤ m → ∃ l, freeVars m f = some l ∧ ∀ v, v ∈ l ↔ OccursFree v f := by
  refine ⟨2 * f.size, fun m hm => ?_⟩
  obtain ⟨l, h1, h2⟩ := free_vars_run f m hm
  refine ⟨l, h1, fun v => ?_⟩
  rw [h2.mem_iff, Fm.free, mem_freeIn]
  simp

/-- **C04.** …and each free variable is listed once per free occurrence. -/
theorem C04_free_vars_multiplicity (f : Fm F) :
    ∃ n, ∀ m, n ≤ m → ∃ l, freeVars m f = some l ∧ l.Perm f.free :=
  ⟨2 * f.size, fun m hm => free_vars_run f m hm⟩

/-- Non-trivial instance: shadowing and a variable that is both free and bound. -/
example : freeVars 40 (Fm.app () [.quant .all [⟨0, .message⟩] (.app () [.var ⟨0, .message⟩,
      .quant .ex [⟨1, .index⟩] (.var ⟨1, .index⟩), .var ⟨1, .index⟩]), .var ⟨0, .message⟩])
    = some [⟨0, .message⟩, ⟨1, .index⟩] := by decide

end CV
