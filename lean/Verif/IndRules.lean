import Verif.Ind
set_option linter.unusedSimpArgs false
/-
Property C69: the rewrite rules of the prototype for indistinguishability.
-/
namespace CV
namespace Ind

/-! ### Specification -/

/-- An interpretation of the language. -/
structure Mdl (D : Type) where
  fn : Op → List D → D

mutual
def Tm.eval {D : Type} (M : Mdl D) (ρ : String → D) : Tm → D
  | .var x => ρ x
  | .app f args => M.fn f (Tm.evals M ρ args)
def Tm.evals {D : Type} (M : Mdl D) (ρ : String → D) : List Tm → List D
  | [] => []
  | a :: as => a.eval M ρ :: Tm.evals M ρ as
end

theorem Tm.evals_eq {D : Type} (M : Mdl D) (ρ : String → D) : ∀ l, Tm.evals M ρ l = l.map (Tm.eval M ρ)
  | [] => rfl
  | a :: as => by rw [Tm.evals, Tm.evals_eq M ρ as]; rfl

/-- What the symbols mean: pairs and projections, decryption of encryptions, conditionals, equality, lengths. -/
structure Std {D : Type} (M : Mdl D) : Prop where
  p1 : ∀ a b, M.fn .p1 [M.fn .tuple [a, b]] = a
  p2 : ∀ a b, M.fn .p2 [M.fn .tuple [a, b]] = b
  dec : ∀ m r k, M.fn .dec [M.fn .enc [m, r, M.fn .pk [k]], k] = m
  iteT : ∀ a b, M.fn .ite [M.fn .tru [], a, b] = a
  iteF : ∀ c a b, c ≠ M.fn .tru [] → M.fn .ite [c, a, b] = b
  eqT : ∀ a, M.fn .eq [a, a] = M.fn .tru []
  eqF : ∀ a b, a ≠ b → M.fn .eq [a, b] = M.fn .fls []
  ne : M.fn .tru [] ≠ M.fn .fls []
  lenNonce : ∀ x, M.fn .length [M.fn .nonce [x]] = M.fn .eta []
  lenZeroes : ∀ x, M.fn .length [M.fn .zeroes [M.fn .length [x]]] = M.fn .length [x]

/-- A rule makes equal what is equal. -/
def Rw.Valid {D : Type} (M : Mdl D) (r : Rw) : Prop := ∀ ρ, r.lhs.eval M ρ = r.rhs.eval M ρ

/-! ### The rules -/

theorem bubble_valid {D : Type} {M : Mdl D} (h : Std M) (f : Op) (n : Nat) (ρ : String → D) :
    (bubbleL f n).eval M ρ = (bubbleR f n).eval M ρ := by
  simp only [bubbleL, bubbleR, Tm.eval, Tm.evals_eq, List.map_cons, List.map_nil, List.map_map]
  have hlen : (bvars 0 n).length = (bvars n n).length := by simp [bvars]
  generalize bvars 0 n = l₁ at hlen ⊢
  generalize bvars n n = l₂ at hlen ⊢
  by_cases hc : ρ "c" = M.fn .tru []
  · rw [hc, h.iteT]
    congr 1
    have : ((Tm.eval M ρ) ∘ fun p : Tm × Tm => Tm.app .ite [.var "c", p.1, p.2]) = (Tm.eval M ρ) ∘ Prod.fst := by
      funext p
      simp only [Function.comp, Tm.eval, Tm.evals, hc, h.iteT]
    rw [this, ← List.map_map, List.map_fst_zip (Nat.le_of_eq hlen)]
  · rw [h.iteF _ _ _ hc]
    congr 1
    have : ((Tm.eval M ρ) ∘ fun p : Tm × Tm => Tm.app .ite [.var "c", p.1, p.2]) = (Tm.eval M ρ) ∘ Prod.snd := by
      funext p
      simp only [Function.comp, Tm.eval, Tm.evals]
      exact h.iteF _ _ _ hc
    rw [this, ← List.map_map, List.map_snd_zip (Nat.le_of_eq hlen.symm)]

/-- **C69 (rules that move conditionals).** Valid for every function and number of arguments. -/
theorem C69_bubble {D : Type} {M : Mdl D} (h : Std M) (fs : List (Op × Nat)) : ∀ r ∈ bubbleRules fs, r.Valid M := by
  intro r hr ρ
  simp only [bubbleRules, List.mem_append, List.mem_map] at hr
  rcases hr with ⟨p, _, rfl⟩ | ⟨p, _, rfl⟩
  · exact bubble_valid h p.1 p.2 ρ
  · exact (bubble_valid h p.1 p.2 ρ).symm

/-- **C69 (general rules; partial).** All general rules are valid except two: `simpl-tuple-2` and `ite-eq-1`
(`C69_unsound`). -/
theorem C69_general_partial {D : Type} {M : Mdl D} (h : Std M) : ∀ r ∈ generalRules, r.name ≠ "simpl-tuple-2" → r.name ≠ "ite-eq-1" →
    r.Valid M := by
  intro r hr h1 h2 ρ
  simp only [generalRules, List.mem_cons, List.not_mem_nil, or_false] at hr
  rcases hr with rfl | rfl | rfl | rfl | rfl | rfl | rfl | rfl | rfl | rfl | rfl | rfl
  · exact h.p1 _ _
  · exact absurd rfl h1
  · exact h.dec _ _ _
  · exact h.iteT _ _
  · exact h.iteF _ _ _ (fun e => h.ne e.symm)
  · show M.fn .ite [ρ "c", ρ "a", ρ "a"] = ρ "a"
    by_cases hc : ρ "c" = M.fn .tru []
    · rw [hc, h.iteT]
    · rw [h.iteF _ _ _ hc]
  · exact absurd rfl h2
  · show M.fn .ite [M.fn .eq [ρ "a", ρ "b"], ρ "a", ρ "b"] = ρ "b"
    by_cases he : ρ "a" = ρ "b"
    · rw [he, h.eqT, h.iteT]
    · rw [h.eqF _ _ he, h.iteF _ _ _ (fun e => h.ne e.symm)]
  · exact h.eqT _
  · show M.fn .eq [ρ "a", ρ "b"] = M.fn .eq [ρ "b", ρ "a"]
    by_cases he : ρ "a" = ρ "b"
    · rw [he]
    · rw [h.eqF _ _ he, h.eqF _ _ (Ne.symm he)]
  · exact h.lenNonce _
  · exact h.lenZeroes _

/-- **C69 fails for two rules.** `simpl-tuple-2` makes the second projection of a pair equal to its first component, and
`ite-eq-1` makes `ite(a = b, a, b)` equal to `a`; neither is valid in any interpretation. -/
theorem C69_unsound {D : Type} {M : Mdl D} (h : Std M) : ∀ r ∈ generalRules, (r.name = "simpl-tuple-2" ∨ r.name = "ite-eq-1") →
    ¬ r.Valid M := by
  intro r hr hn hv
  have hρ := hv fun x => if x = "a" then M.fn .tru [] else M.fn .fls []
  simp only [generalRules, List.mem_cons, List.not_mem_nil, or_false] at hr
  rcases hr with rfl | rfl | rfl | rfl | rfl | rfl | rfl | rfl | rfl | rfl | rfl | rfl
  · rcases hn with e | e <;> exact absurd e (by decide)
  · have : M.fn .p2 [M.fn .tuple [M.fn .tru [], M.fn .fls []]] = M.fn .tru [] := hρ
    rw [h.p2] at this
    exact h.ne this.symm
  · rcases hn with e | e <;> exact absurd e (by decide)
  · rcases hn with e | e <;> exact absurd e (by decide)
  · rcases hn with e | e <;> exact absurd e (by decide)
  · rcases hn with e | e <;> exact absurd e (by decide)
  · have : M.fn .ite [M.fn .eq [M.fn .tru [], M.fn .fls []], M.fn .tru [], M.fn .fls []] = M.fn .tru [] := hρ
    rw [h.eqF _ _ h.ne, h.iteF _ _ _ (fun e => h.ne e.symm)] at this
    exact h.ne this.symm
  · rcases hn with e | e <;> exact absurd e (by decide)
  · rcases hn with e | e <;> exact absurd e (by decide)
  · rcases hn with e | e <;> exact absurd e (by decide)
  · rcases hn with e | e <;> exact absurd e (by decide)
  · rcases hn with e | e <;> exact absurd e (by decide)

/-! ### What follows from the rules -/

mutual
def Tm.sub (σ : String → Tm) : Tm → Tm
  | .var x => σ x
  | .app f args => .app f (Tm.subs σ args)
def Tm.subs (σ : String → Tm) : List Tm → List Tm
  | [] => []
  | a :: as => a.sub σ :: Tm.subs σ as
end

/-- What the rules make equal: the congruence they generate. -/
inductive Eqv (R : List Rw) : Tm → Tm → Prop
  | refl (t) : Eqv R t t
  | symm {t u} : Eqv R t u → Eqv R u t
  | trans {t u w} : Eqv R t u → Eqv R u w → Eqv R t w
  | rule {r} (h : r ∈ R) (σ) : Eqv R (r.lhs.sub σ) (r.rhs.sub σ)
  | cong {f l r t u} : Eqv R t u → Eqv R (.app f (l ++ t :: r)) (.app f (l ++ u :: r))

theorem Tm.eval_sub {D : Type} (M : Mdl D) (ρ : String → D) (σ : String → Tm) (t : Tm) :
    (t.sub σ).eval M ρ = t.eval M (fun x => (σ x).eval M ρ) := by
  induction t using Tm.ind with
  | hv x => rfl
  | ha f args ih =>
    have : ∀ l : List Tm, (∀ a ∈ l, (a.sub σ).eval M ρ = a.eval M (fun x => (σ x).eval M ρ)) →
        Tm.evals M ρ (Tm.subs σ l) = Tm.evals M (fun x => (σ x).eval M ρ) l := by
      intro l
      induction l with
      | nil => intro _; rfl
      | cons a l ih =>
        intro h
        simp only [Tm.subs, Tm.evals]
        rw [h a (List.mem_cons_self ..), ih (fun b hb => h b (List.mem_cons_of_mem _ hb))]
    simp only [Tm.sub, Tm.eval]
    rw [this args ih]

/-- **C69 (valid rules prove equalities).** Whatever follows from valid rules is equal in the interpretation. -/
theorem C69_equalities {D : Type} {M : Mdl D} {R : List Rw} (hR : ∀ r ∈ R, r.Valid M) {t u : Tm} (h : Eqv R t u) (ρ : String → D) :
    t.eval M ρ = u.eval M ρ := by
  induction h with
  | refl => rfl
  | symm _ ih => exact ih.symm
  | trans _ _ ih1 ih2 => exact ih1.trans ih2
  | rule hr σ => rw [Tm.eval_sub, Tm.eval_sub]; exact hR _ hr _
  | cong _ ih => simp only [Tm.eval, Tm.evals_eq, List.map_append, List.map_cons, ih]

/-- **C69 (collapse).** With the rules of the tool all terms are equal: `ite(a = b, a, b)` is made equal to `a` and to
`b`. Any two terms of a graph that contains this conditional are merged, so that every equivalence is reported. -/
theorem C69_collapse (a b : Tm) : Eqv rules a b := by
  have h1 := Eqv.rule (R := rules) (r := ⟨"ite-eq-1", .app .ite [.app .eq [.var "a", .var "b"], .var "a", .var "b"], .var "a"⟩)
    (by simp [rules, generalRules]) (fun x => if x = "a" then a else b)
  have h2 := Eqv.rule (R := rules) (r := ⟨"ite-eq-2", .app .ite [.app .eq [.var "a", .var "b"], .var "a", .var "b"], .var "b"⟩)
    (by simp [rules, generalRules]) (fun x => if x = "a" then a else b)
  exact h1.symm.trans h2

/-! ### Case: an interpretation of terms by normal forms -/

/-- Values. -/
inductive Val
  | atom (n : Nat)
  | app (f : Op) (args : List Val)

open Classical in
/-- Projections, decryptions, conditionals, equality and lengths compute; other functions build values. -/
noncomputable def valFn : Op → List Val → Val
  | .p1, [.app .tuple [a, _]] => a
  | .p2, [.app .tuple [_, b]] => b
  | .dec, [.app .enc [m, _, .app .pk [k]], k'] => if k = k' then m else .app .dec [k']
  | .ite, [c, a, b] => if c = .app .tru [] then a else b
  | .eq, [a, b] => if a = b then .app .tru [] else .app .fls []
  | .length, [.app .nonce [_]] => .app .eta []
  | .length, [.app .zeroes [l]] => l
  | f, args => .app f args

noncomputable def valM : Mdl Val := ⟨valFn⟩

theorem valM_std : Std valM where
  p1 _ _ := rfl
  p2 _ _ := rfl
  dec _ _ _ := by simp [valM, valFn]
  iteT _ _ := by simp [valM, valFn]
  iteF c a b h := by
    have h : c ≠ .app .tru [] := h
    simp [valM, valFn, h]
  eqT _ := by simp [valM, valFn]
  eqF a b h := by simp [valM, valFn, h]
  ne h := by
    have h : Val.app .tru [] = .app .fls [] := h
    cases h
  lenNonce _ := rfl
  lenZeroes _ := rfl

example : ∀ r ∈ bubbleRules funs, r.Valid valM := C69_bubble valM_std funs

/-- Case for `C69_equalities`: `p1(ite(true, (a, b), false)) = a`. -/
example (ρ : String → Val) : (Tm.app .p1 [.app .ite [mtrue, .app .tuple [.var "a", .var "b"], mfalse]]).eval valM ρ = (Tm.var "a").eval valM ρ := by
  refine C69_equalities (R := [⟨"ite-base-1", .app .ite [mtrue, .var "a", .var "b"], .var "a"⟩,
    ⟨"simpl-tuple-1", .app .p1 [.app .tuple [.var "a", .var "b"]], .var "a"⟩]) ?_ ?_ ρ
  · refine List.forall_mem_cons.2 ⟨?_, List.forall_mem_singleton.2 ?_⟩
    · exact C69_general_partial valM_std _ (by simp [generalRules, mtrue]) (by decide) (by decide)
    · exact C69_general_partial valM_std _ (by simp [generalRules]) (by decide) (by decide)
  · refine Eqv.trans (u := .app .p1 [.app .tuple [.var "a", .var "b"]]) ?_ ?_
    · refine Eqv.cong (l := []) (r := []) ?_
      exact Eqv.rule (r := ⟨"ite-base-1", .app .ite [mtrue, .var "a", .var "b"], .var "a"⟩) (List.mem_cons_self ..)
        (fun x => if x = "a" then .app .tuple [.var "a", .var "b"] else mfalse)
    · exact Eqv.rule (r := ⟨"simpl-tuple-1", .app .p1 [.app .tuple [.var "a", .var "b"]], .var "a"⟩)
        (List.mem_cons_of_mem _ (List.mem_singleton_self _)) (fun x => .var x)

end Ind
end CV
