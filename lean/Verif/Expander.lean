import Verif.IntCtxtEx
import Verif.CryptoEx
import Verif.Piles
set_option linter.unusedSimpArgs false
/-
Model of formula/formula/expanding_formula.rs (`Expander`), through which the variables of a list of formulas are
enumerated (formula/formula/arc.rs:153-157) when the number of a fresh variable is computed for a candidate of the
cryptographic axioms. Paths are relative to /repo/crates/cryptovampire/src. Also: what the candidates miss.
-/
namespace CV
open Dep
variable {F : Type}

/-- What a quantifier symbol adds to the substitution (expanding_formula.rs:84-87): its free variables are paired
with its contents, not with its arguments. -/
def replaced (k : Kind F) : List (Var × Fm F) := match k with
  | .taq _ free content => free.zip content
  | _ => []

/-- The formula that replaces a variable (expanding_formula.rs:50-53): the last pair for its number. -/
def lookupVar (σ : List (Var × Fm F)) (v : Var) : Option (Fm F) :=
  (σ.reverse.find? (fun p => p.1.id == v.id)).map Prod.snd

/-- `UsedVariableIterator` on an `Expander` (expanding_formula.rs:36-97, logic_formula/src/iterators.rs:20-34). The
value passed is the substitution. A variable that is replaced is destructed again at once; here it is put on the
pile, which is where it is taken from next. -/
def expandIter (kind : F → Kind F) : FIter Var F (List (Var × Fm F)) Unit where
  visit := fun _ f σ => ((), match f with
    | .var v => (match lookupVar σ v with
      | some c => [.next c σ]
      | none => [.result v])
    | .app g args => args.map (fun a => .next a (σ ++ replaced (kind g)))
    | .quant _ _ b => [.next b σ])

/-- Models `IntoVariableIter::vars_iter` of `&ARichFormula` (arc.rs:153-157), collected. -/
def expandVars (kind : F → Kind F) (fuel : Nat) (t : Fm F) : Option (List Var) :=
  runPile (expandIter kind) fuel () [.next t []]

/-- Specification: the symbols applied in a formula. -/
def Applied (t : Fm F) (g : F) : Prop := ∃ args, Fm.app g args ∈ t.subs

/-- Specification: a number that a quantifier symbol of the formula replaces. -/
def Replaces (kind : F → Kind F) (t : Fm F) (i : Nat) : Prop :=
  ∃ g, Applied t g ∧ i ∈ (replaced (kind g)).map (fun p => p.1.id)

/-! ### No variable is replaced -/

theorem lookupVar_none {σ : List (Var × Fm F)} {v : Var} (h : v.id ∉ σ.map (fun p => p.1.id)) :
    lookupVar σ v = none := by
  unfold lookupVar
  rw [Option.map_eq_none_iff, List.find?_eq_none]
  intro p hp e
  exact h (List.mem_map.2 ⟨p, List.mem_reverse.1 hp, by simpa using e⟩)

/-- What is on the pile replaces none of its variables. -/
def CleanC (kind : F → Kind F) : Content Var F (List (Var × Fm F)) → Prop
  | .result _ => True
  | .next f σ => ∀ v ∈ f.vars, v.id ∉ σ.map (fun p => p.1.id) ∧ ¬ Replaces kind f v.id

def eraseC : Content Var F (List (Var × Fm F)) → Content Var F Unit
  | .result u => .result u
  | .next f _ => .next f ()

theorem subs_self (t : Fm F) : t ∈ t.subs := by cases t <;> simp [Fm.subs]

theorem subs_arg {f : F} {args : List (Fm F)} {a s : Fm F} (ha : a ∈ args) (hs : s ∈ a.subs) : s ∈ (Fm.app f args).subs := by
  simp only [Fm.subs, Fm.subss_eq, List.mem_cons, List.mem_flatMap]
  exact .inr ⟨a, ha, hs⟩

theorem vars_of_arg {f : F} {args : List (Fm F)} {a : Fm F} (ha : a ∈ args) {v : Var} (hv : v ∈ a.vars) : v ∈ (Fm.app f args).vars := by
  simp only [Fm.vars, Fm.varss_eq, List.mem_flatMap]
  exact ⟨a, ha, hv⟩

/-- The runs on a clean pile and on the pile without substitutions are the same. -/
theorem expand_run (kind : F → Kind F) : ∀ (n : Nat) (π : List (Content Var F (List (Var × Fm F)))),
    (∀ c ∈ π, CleanC kind c) → runPile (expandIter kind) n () π = runPile usedVarIter n () (π.map eraseC) := by
  intro n
  induction n with
  | zero => intro π _; cases π <;> simp [runPile]
  | succ n ih =>
    intro π h
    cases π with
    | nil => simp [runPile]
    | cons c π =>
      obtain ⟨hc, hπ⟩ := List.forall_mem_cons.1 h
      cases c with
      | result v => simp only [runPile, List.map_cons, eraseC, ih π hπ]
      | next f σ =>
        simp only [runPile, List.map_cons, eraseC]
        cases f with
        | var v =>
          have hn := lookupVar_none (hc v (by simp [Fm.vars])).1
          rw [ih]
          · simp only [expandIter, hn, usedVarIter, Fm.args, List.reverse_cons, List.reverse_nil, List.nil_append,
              List.map_append, List.map_cons, List.map_nil, eraseC]
          · simp only [expandIter, hn]
            simp only [List.reverse_cons, List.reverse_nil, List.nil_append, List.cons_append]
            exact List.forall_mem_cons.2 ⟨trivial, hπ⟩
        | app g args =>
          rw [ih]
          · simp [expandIter, usedVarIter, Fm.args, eraseC, Function.comp_def]
          · intro c hmem
            simp only [expandIter, List.mem_append, List.mem_reverse, List.mem_map] at hmem
            rcases hmem with ⟨a, ha, rfl⟩ | hmem
            swap
            · exact hπ c hmem
            intro v hv
            obtain ⟨h1, h2⟩ := hc v (vars_of_arg ha hv)
            refine ⟨?_, ?_⟩
            · rw [List.map_append, List.mem_append]
              rintro (h3 | h3)
              · exact h1 h3
              · exact h2 ⟨g, ⟨args, subs_self _⟩, h3⟩
            · rintro ⟨g', ⟨as, h3⟩, h4⟩
              exact h2 ⟨g', ⟨as, subs_arg ha h3⟩, h4⟩
        | quant q vs b =>
          rw [ih]
          · simp [expandIter, usedVarIter, Fm.args, eraseC]
          · intro c hmem
            simp only [expandIter, List.mem_append, List.mem_reverse, List.mem_singleton] at hmem
            rcases hmem with rfl | hmem
            swap
            · exact hπ c hmem
            intro v hv
            obtain ⟨h1, h2⟩ := hc v (by simpa [Fm.vars] using hv)
            refine ⟨h1, ?_⟩
            rintro ⟨g', ⟨as, h3⟩, h4⟩
            exact h2 ⟨g', ⟨as, by simp [Fm.subs, h3]⟩, h4⟩

/-- **C67: the variables enumerated.** When no variable of a formula has the number of one that its quantifier
symbols replace, the enumeration ends and yields exactly the variables of the formula, each as often as it occurs. -/
theorem C67_enumerates_partial (kind : F → Kind F) (t : Fm F) (h : ∀ v ∈ t.vars, ¬ Replaces kind t v.id) :
    ∃ n, ∀ m, n ≤ m → ∃ l, expandVars kind m t = some l ∧ l.Perm t.vars := by
  obtain ⟨n, hn⟩ := C04_used_vars t
  refine ⟨n, fun m hm => ?_⟩
  obtain ⟨l, h1, h2⟩ := hn m hm
  refine ⟨l, ?_, h2⟩
  unfold expandVars
  rw [expand_run kind m [.next t []] (List.forall_mem_singleton.2 (show CleanC kind (.next t []) from
    fun v hv => ⟨by simp, h v hv⟩))]
  exact h1

/-- **C67: the contents of quantifier symbols are not enumerated.** Every variable enumerated occurs in the formula or
in the content paired with a free variable of a quantifier symbol; a content is looked at only when it replaces a
variable. In particular a quantifier symbol applied to nothing yields nothing, whatever its contents are. -/
theorem C67_contents_counterexample : ∃ (kind : Bool → Kind Bool) (v : Var) (c : Fm Bool),
    kind true = .taq [] [] [c] ∧ v ∈ c.free ∧ ∀ n, 1 ≤ n → expandVars kind n (.app true []) = some [] := by
  refine ⟨fun _ => .taq [] [] [.var ⟨3, .message⟩], ⟨3, .message⟩, .var ⟨3, .message⟩, rfl, by simp [Fm.free, Fm.freeIn], ?_⟩
  rintro (_ | n) hn
  · omega
  · cases n <;> simp [expandVars, runPile, expandIter]

/-- **C67: the enumeration may not end.** A quantifier symbol applied to its parameter, which occurs in its
content (`q(x)` with `q` standing for a quantification over a formula `c(x)`): the parameter is replaced by the
content for ever. -/
theorem C67_diverges (kind : F → Kind F) {q : F} {v : Var} {bound : List Var} {c : Fm F}
    (hq : kind q = .taq bound [v] [c]) (hv : v ∈ c.vars) (hc : ∀ g, Applied c g → replaced (kind g) = []) :
    ∀ n, expandVars kind n (.app q [.var v]) = none := by
  have hr : replaced (kind q) = [(v, c)] := by rw [hq]; rfl
  intro n
  refine runPile_diverges (expandIter kind)
    (fun f σ => (f = .app q [.var v] ∧ σ = []) ∨ (σ = [(v, c)] ∧ v ∈ f.vars ∧ ∀ g, Applied f g → replaced (kind g) = [])) ?_
    n _ _ (.inl ⟨rfl, rfl⟩)
  rintro f σ (⟨rfl, rfl⟩ | ⟨rfl, hf, hg⟩)
  · exact ⟨.var v, [(v, c)], by simp [expandIter, hr], .inr ⟨rfl, by simp [Fm.vars], fun g ⟨as, h⟩ => by simp [Fm.subs] at h⟩⟩
  · cases f with
    | var w =>
      have : w = v := by simpa [Fm.vars, eq_comm] using hf
      subst this
      exact ⟨c, [(w, c)], by simp [expandIter, lookupVar], .inr ⟨rfl, hv, hc⟩⟩
    | app g args =>
      simp only [Fm.vars, Fm.varss_eq, List.mem_flatMap] at hf
      obtain ⟨a, ha, hva⟩ := hf
      refine ⟨a, [(v, c)], ?_, .inr ⟨rfl, hva, fun g' ⟨as, h⟩ => hg g' ⟨as, subs_arg ha h⟩⟩⟩
      simp [expandIter, hg g ⟨args, subs_self _⟩, ha]
    | quant k vs b =>
      exact ⟨b, [(v, c)], by simp [expandIter], .inr ⟨rfl, by simpa [Fm.vars] using hf,
        fun g' ⟨as, h⟩ => hg g' ⟨as, by simp [Fm.subs, h]⟩⟩⟩

/-- Case for C67: `q(x)` where `q` stands for a quantification over `p(x)`. -/
example (v : Var) : ∀ n, expandVars (fun b : Bool => if b then .taq [] [v] [.app false [.var v]] else .plain) n
    (.app true [.var v]) = none :=
  C67_diverges _ (c := .app false [.var v]) rfl (by simp [Fm.vars, Fm.varss]) (by
    rintro g ⟨as, h⟩
    simp [Fm.subs, Fm.subss] at h
    rw [h.1]; rfl)

/-- Case for `C67_enumerates_partial`: a symbol applied to other variables than its parameters. -/
example : ∃ n, ∀ m, n ≤ m → ∃ l, expandVars (fun b : Bool => if b then .taq [] [⟨0, .index⟩] [.app false [.var ⟨0, .index⟩]] else .plain) m
    (.app true [.var ⟨7, .index⟩]) = some l ∧ l.Perm [⟨7, .index⟩] :=
  C67_enumerates_partial _ (Fm.app true [.var ⟨7, .index⟩]) (by
    rintro v hv ⟨g, ⟨as, h⟩, hr⟩
    simp [Fm.vars, Fm.varss] at hv
    simp [Fm.subs, Fm.subss] at h
    rw [h.1] at hr
    subst hv
    simp [replaced] at hr)

/-! ### The number of the fresh variable of a candidate -/
namespace Cry
open SmtM Ev

/-- The number of the fresh variable of a list of terms as the code computes it (uf_cma.rs:341, euf_cma.rs:191,
int_ctxt.rs:295). -/
def Pbl.freshId (K : Pbl F) (fuel : Nat) (ts : List (Fm F)) : Option Nat :=
  (flatO (expandVars K.E.L.kind fuel) ts).map fun vs => maxVarOrMax (vs.map Var.id) K.maxVar

/-- A list of results, one per element. -/
theorem flatO_perm {α β : Type} {f : Nat → α → Option (List β)} {g : α → List β} (l : List α)
    (h : ∀ a ∈ l, ∃ n, ∀ m, n ≤ m → ∃ r, f m a = some r ∧ r.Perm (g a)) :
    ∃ n, ∀ m, n ≤ m → ∃ r, flatO (f m) l = some r ∧ r.Perm (l.flatMap g) := by
  induction l with
  | nil => exact ⟨0, fun _ _ => ⟨[], rfl, by simp⟩⟩
  | cons a l ih =>
    obtain ⟨n₁, h₁⟩ := h a (List.mem_cons_self ..)
    obtain ⟨n₂, h₂⟩ := ih (fun b hb => h b (List.mem_cons_of_mem _ hb))
    refine ⟨max n₁ n₂, fun m hm => ?_⟩
    obtain ⟨r₁, e₁, p₁⟩ := h₁ m (by omega)
    obtain ⟨r₂, e₂, p₂⟩ := h₂ m (by omega)
    refine ⟨r₁ ++ r₂, ?_, ?_⟩
    · simp [flatO, mapO, e₁] at e₂ ⊢
      obtain ⟨x, hx, rfl⟩ := e₂
      exact ⟨_, hx, rfl⟩
    · simpa using p₁.append p₂

theorem max?_perm {l l' : List Nat} (h : l.Perm l') : l.max? = l'.max? := by
  cases hm : l'.max? with
  | none =>
    rw [List.max?_eq_none_iff] at hm ⊢
    subst hm
    exact h.eq_nil
  | some a =>
    rw [List.max?_eq_some_iff] at hm ⊢
    exact ⟨h.mem_iff.2 hm.1, fun b hb => hm.2 b (h.mem_iff.1 hb)⟩

/-- **C67: the variable is fresh.** For terms whose variables were shifted past those of the problem, when the
parameters of the quantifier symbols of the terms are numbered as variables of the problem, the number computed is
larger than that of every variable of the terms and of the problem. -/
theorem freshId_eq (K : Pbl F) (ts : List (Fm F))
    (hv : ∀ t ∈ ts, ∀ v ∈ t.vars, K.maxVar ≤ v.id)
    (hq : ∀ t ∈ ts, ∀ i, Replaces K.E.L.kind t i → i < K.maxVar) :
    ∃ n, ∀ m, n ≤ m → K.freshId m ts = some (maxVarOrMax ((ts.flatMap Fm.vars).map Var.id) K.maxVar) := by
  obtain ⟨n, hn⟩ := flatO_perm (f := expandVars K.E.L.kind) (g := Fm.vars) ts (fun t ht =>
    C67_enumerates_partial _ t (fun v hvv hr => absurd (hq t ht _ hr) (Nat.not_lt.2 (hv t ht v hvv))))
  refine ⟨n, fun m hm => ?_⟩
  obtain ⟨r, h1, h2⟩ := hn m hm
  unfold Pbl.freshId
  rw [h1, Option.map_some, maxVarOrMax, maxVarOrMax, max?_perm (h2.map Var.id)]

theorem translated_ge {n : Nat} {t : Fm F} {v : Var} (h : v ∈ (t.translateVars n).vars) : n ≤ v.id := by
  rw [vars_translate] at h
  obtain ⟨w, _, rfl⟩ := List.mem_map.1 h
  exact Nat.le_add_left ..

theorem mem_subs_translate {n : Nat} {t s : Fm F} (h : s ∈ (t.translateVars n).subs) :
    ∃ s' ∈ t.subs, s = s'.translateVars n := by
  unfold Fm.translateVars at h ⊢
  induction t using Fm.ind with
  | hvar v =>
    simp only [Subst.apply, Subst.translate, Fm.subs, List.mem_singleton] at h
    exact ⟨.var v, by simp [Fm.subs], by simp [Subst.apply, Subst.translate, h]⟩
  | happ g args ih =>
    simp only [Subst.apply, Subst.applys_eq, Fm.subs, Fm.subss_eq, List.mem_cons, List.mem_flatMap, List.mem_map] at h
    rcases h with rfl | ⟨_, ⟨a, ha, rfl⟩, h⟩
    · exact ⟨.app g args, subs_self _, by simp [Subst.apply, Subst.applys_eq]⟩
    · obtain ⟨s', h1, h2⟩ := ih a ha h
      exact ⟨s', subs_arg ha h1, h2⟩
  | hquant q vs b ih =>
    simp only [Subst.apply, Fm.subs, List.mem_cons] at h
    rcases h with rfl | h
    · exact ⟨.quant q vs b, subs_self _, by simp [Subst.apply]⟩
    · obtain ⟨s', h1, h2⟩ := ih h
      exact ⟨s', by simp [Fm.subs, h1], h2⟩

theorem applied_translate {n : Nat} {t : Fm F} {g : F} (h : Applied (t.translateVars n) g) : Applied t g := by
  obtain ⟨as, h⟩ := h
  obtain ⟨s', h1, h2⟩ := mem_subs_translate h
  unfold Fm.translateVars at h2
  cases s' with
  | var v => simp [Subst.apply, Subst.translate] at h2
  | app f args =>
    simp only [Subst.apply, Fm.app.injEq] at h2
    rw [← h2.1] at h1
    exact ⟨args, h1⟩
  | quant q vs b => simp [Subst.apply] at h2

theorem subs_trans {s t u : Fm F} (h1 : s ∈ t.subs) (h2 : t ∈ u.subs) : s ∈ u.subs := by
  induction u using Fm.ind with
  | hvar v =>
    simp only [Fm.subs, List.mem_singleton] at h2
    subst h2; exact h1
  | happ g args ih =>
    simp only [Fm.subs, Fm.subss_eq, List.mem_cons, List.mem_flatMap] at h2
    rcases h2 with rfl | ⟨a, ha, h2⟩
    · exact h1
    · exact subs_arg ha (ih a ha h2)
  | hquant q vs b ih =>
    simp only [Fm.subs, List.mem_cons] at h2
    rcases h2 with rfl | h2
    · exact h1
    · simp [Fm.subs, ih h2]

/-- Specification: the parameters that the quantifier symbols of the problem replace have the numbers of variables of
the problem. It is the case when each symbol is applied to its parameters somewhere in the problem. -/
def Pbl.Registered (K : Pbl F) : Prop :=
  ∀ top ∈ K.tops, ∀ i, Replaces K.E.L.kind top i → ∃ top' ∈ K.tops, ∃ v ∈ top'.vars, v.id = i

/-- A symbol applied to its parameters. -/
theorem registered_of_applied {K : Pbl F} (h : ∀ top ∈ K.tops, ∀ g, Applied top g → ∀ p ∈ replaced (K.E.L.kind g),
    ∃ top' ∈ K.tops, ∃ args, Fm.app g args ∈ top'.subs ∧ Fm.var p.1 ∈ args) : K.Registered := by
  rintro top ht i ⟨g, hg, hi⟩
  obtain ⟨p, hp, rfl⟩ := List.mem_map.1 hi
  obtain ⟨top', h1, args, h2, h3⟩ := h top ht g hg p hp
  refine ⟨top', h1, p.1, ?_, rfl⟩
  have h4 : Fm.var p.1 ∈ top'.subs := subs_trans (subs_arg h3 (subs_self _)) h2
  clear h1 h2
  induction top' using Fm.ind with
  | hvar v => simpa [Fm.subs, Fm.vars] using h4
  | happ f as ih =>
    simp only [Fm.subs, Fm.subss_eq, List.mem_cons, List.mem_flatMap, reduceCtorEq, false_or] at h4
    obtain ⟨a, ha, h4⟩ := h4
    exact vars_of_arg ha (ih a ha h4)
  | hquant q vs b ih =>
    simp only [Fm.subs, List.mem_cons, reduceCtorEq, false_or] at h4
    simpa [Fm.vars] using ih h4

/-- The fresh number of terms that are renumbered subterms of the problem. -/
theorem freshId_prepared (K : Pbl F) (hK : K.Registered) (ts : List (Fm F))
    (h : ∀ t ∈ ts, ∃ t₀, t = t₀.translateVars K.maxVar ∧ ∃ top ∈ K.tops, t₀ ∈ top.subs) :
    (∃ n, ∀ m, n ≤ m → K.freshId m ts = some (maxVarOrMax ((ts.flatMap Fm.vars).map Var.id) K.maxVar)) ∧
      ∀ v, v ∈ (ts ++ K.tops).flatMap Fm.vars → v.id < maxVarOrMax ((ts.flatMap Fm.vars).map Var.id) K.maxVar := by
  refine ⟨freshId_eq K ts ?_ ?_, ?_⟩
  · intro t ht v hv
    obtain ⟨t₀, rfl, _⟩ := h t ht
    exact translated_ge hv
  · rintro t ht i ⟨g, hg, hi⟩
    obtain ⟨t₀, rfl, top, htop, hs⟩ := h t ht
    obtain ⟨as, ha⟩ := applied_translate hg
    obtain ⟨top', h1, v, h2, rfl⟩ := hK top htop i ⟨g, ⟨as, subs_trans ha hs⟩, hi⟩
    exact C05_fresh_formulas K.tops top' h1 v h2
  · intro v hv
    rw [List.flatMap_append, List.mem_append] at hv
    rcases hv with hv | hv
    · exact (C05_fresh _ _).2 _ (List.mem_map_of_mem hv)
    · obtain ⟨t, ht, hv⟩ := List.mem_flatMap.1 hv
      exact Nat.lt_trans (C05_fresh_formulas K.tops t ht v hv) (C05_fresh _ _).1

variable [DecidableEq F]

theorem castArg_eq {cast : F} {t k : Fm F} (h : castArg cast t = some k) : t = .app cast [k] := by
  unfold castArg at h
  split at h
  · split at h
    · rename_i e; cases h; rw [e]
    · cases h
  · cases h

omit [DecidableEq F] in
theorem all_terms_sub {K : Pbl F} {l : List (Fm F)} (hl : flatO (allTerms K.fuel) K.tops = some l) {t : Fm F}
    (ht : t ∈ l) : ∃ top ∈ K.tops, t ∈ top.subs := by
  obtain ⟨top, htop, b, hb, htb⟩ := flatO_mem hl ht
  refine ⟨top, htop, ?_⟩
  obtain ⟨n, hn⟩ := C04_all_terms top
  obtain ⟨b', h1, h2⟩ := hn (max K.fuel n) (Nat.le_max_right ..)
  have h3 := runPile_mono _ _ _ _ _ hb (Nat.le_max_left K.fuel n)
  rw [show runPile allTermsIter (max K.fuel n) () [.next top ()] = some b' from h1] at h3
  cases h3
  exact h2.mem_iff.1 htb

theorem macKey_eq {K : Pbl F} {U : Uf F} {t : Fm F} {p : Fm F × Fm F} (h : U.macKey K t = some p) :
    t = .app U.mac [p.1, .app K.cast [p.2]] := by
  unfold Uf.macKey at h
  split at h
  · split at h
    · rename_i e
      obtain ⟨k, hk, rfl⟩ := Option.map_eq_some_iff.1 h
      rw [castArg_eq hk, e]
    · cases h
  · cases h

theorem bitsArg_eq {K : Pbl F} {t s : Fm F} (h : K.bitsArg t = some s) : t = .app K.toBits [s] := by
  unfold Pbl.bitsArg at h
  split at h
  · split at h
    · rename_i e; cases h; rw [e]
    · cases h
  · cases h

theorem mac_parts {K : Pbl F} {U : Uf F} {t u top : Fm F} (h : t ∈ top.subs) {c : Cand F} (hu : u ∈ top.subs)
    (hc : c ∈ ((U.macKey K t).map (fun p => Cand.mk p.1 u p.2)).toList) : ∀ s ∈ c.terms, s ∈ top.subs := by
  rw [Option.mem_toList, Option.map_eq_some_iff] at hc
  obtain ⟨p, hp, rfl⟩ := hc
  rw [macKey_eq hp] at h
  simp only [Cand.terms, List.forall_mem_cons, List.not_mem_nil, false_implies, implies_true, and_true]
  refine ⟨subs_trans (subs_arg (by simp) (subs_self _)) h, hu, ?_⟩
  exact subs_trans (subs_arg (a := .app K.cast [p.2]) (by simp) (subs_arg (List.mem_singleton_self _) (subs_self _))) h

/-- What is found in a term is made of its subterms. -/
theorem uf_found_subs {K : Pbl F} {U : Uf F} {t : Fm F} {c : Cand F} (hc : c ∈ U.found K t) : ∀ s ∈ c.terms, s ∈ t.subs := by
  have arg : ∀ {f : F} {args : List (Fm F)} {a : Fm F}, a ∈ args → a ∈ (Fm.app f args).subs := fun h => subs_arg h (subs_self _)
  unfold Uf.found at hc
  split at hc
  swap
  · cases hc
  rename_i f args
  rw [List.mem_append, List.mem_append] at hc
  rcases hc with (hc | hc) | hc
  · split at hc
    swap
    · cases hc
    split at hc
    swap
    · cases hc
    rename_i sign mess key _
    rw [Option.mem_toList, Option.map_eq_some_iff] at hc
    obtain ⟨k, hk, rfl⟩ := hc
    rw [castArg_eq hk]
    simp only [Cand.terms, List.forall_mem_cons, List.not_mem_nil, false_implies, implies_true, and_true]
    exact ⟨arg (by simp), arg (by simp), subs_arg (a := .app K.cast [k]) (by simp) (arg (List.mem_singleton_self _))⟩
  · split at hc
    swap
    · cases hc
    split at hc
    swap
    · cases hc
    rename_i l r _
    rw [List.mem_append, List.mem_append] at hc
    rcases hc with (hc | hc) | hc
    · exact mac_parts (arg (by simp)) (arg (by simp)) hc
    · exact mac_parts (arg (by simp)) (arg (by simp)) hc
    · split at hc
      swap
      · cases hc
      rename_i l' r' hl hr
      have h1 : l' ∈ (Fm.app f [l, r]).subs := by
        rw [bitsArg_eq hl]
        exact subs_arg (List.mem_cons_self ..) (arg (List.mem_singleton_self _))
      have h2 : r' ∈ (Fm.app f [l, r]).subs := by
        rw [bitsArg_eq hr]
        exact subs_arg (List.mem_cons_of_mem _ (List.mem_cons_self ..)) (arg (List.mem_singleton_self _))
      rw [List.mem_append] at hc
      rcases hc with hc | hc
      · exact mac_parts h1 h2 hc
      · exact mac_parts h2 h1 hc
  · split at hc
    swap
    · cases hc
    split at hc
    swap
    · cases hc
    rw [List.mem_append] at hc
    rcases hc with hc | hc
    · exact mac_parts (arg (by simp)) (arg (by simp)) hc
    · exact mac_parts (arg (by simp)) (arg (by simp)) hc

theorem argsOf_eq {f : F} {t : Fm F} {as : List (Fm F)} (h : argsOf f t = some as) : t = .app f as := by
  unfold argsOf at h
  split at h
  · split at h
    · rename_i e; cases h; rw [e]
    · cases h
  · cases h

theorem euf_found_subs {K : Pbl F} {U : Euf F} {t : Fm F} {l : List (Cand F)} (hl : U.found K t = some l) {c : Cand F}
    (hc : c ∈ l) : ∀ s ∈ c.terms, s ∈ t.subs := by
  have arg : ∀ {f : F} {args : List (Fm F)} {a : Fm F}, a ∈ args → a ∈ (Fm.app f args).subs := fun h => subs_arg h (subs_self _)
  unfold Euf.found at hl
  split at hl
  · cases hl; cases hc
  rename_i args ht
  obtain ⟨p, hp, hl⟩ := Option.bind_eq_some_iff.1 hl
  split at hl
  · cases hl; cases hc
  rename_i as has
  obtain ⟨q, hq, hl⟩ := Option.bind_eq_some_iff.1 hl
  split at hl
  · cases hl; cases hc
  rename_i bs hbs
  obtain ⟨m, hm, hl⟩ := Option.bind_eq_some_iff.1 hl
  obtain ⟨s, hs, hl⟩ := Option.bind_eq_some_iff.1 hl
  obtain ⟨k, hk, rfl⟩ := Option.map_eq_some_iff.1 hl
  rw [List.mem_singleton] at hc
  subst hc
  rw [argsOf_eq ht]
  simp only [Cand.terms, List.forall_mem_cons, List.not_mem_nil, false_implies, implies_true, and_true]
  refine ⟨arg (List.mem_of_getElem? hm), arg (List.mem_of_getElem? hs), subs_arg (List.mem_of_getElem? hp) ?_⟩
  rw [argsOf_eq has]
  refine subs_arg (List.mem_of_getElem? hq) ?_
  rw [argsOf_eq hbs]
  exact arg (List.mem_of_getElem? hk)

/-- **C67 for MACs.** The number the code computes for the fresh variable of a candidate is the one of the model
(`Pbl.uId`), and no variable of the candidate or of the problem has it. -/
theorem C67_mac_fresh_partial {K : Pbl F} (hK : K.Registered) {U : Uf F} {cs : List (Cand F)} (hcs : U.candidates K = some cs)
    {c : Cand F} (hc : c ∈ cs) :
    (∃ n, ∀ m, n ≤ m → K.freshId m c.terms = some (K.uId c)) ∧
      ∀ v, v ∈ (c.terms ++ K.tops).flatMap Fm.vars → v.id < K.uId c := by
  unfold Uf.candidates at hcs
  obtain ⟨l, hl, rfl⟩ := Option.map_eq_some_iff.1 hcs
  rw [mem_uniq] at hc
  obtain ⟨c₀, hc₀, rfl⟩ := List.mem_map.1 hc
  obtain ⟨t, ht, hc₀⟩ := List.mem_flatMap.1 hc₀
  obtain ⟨top, htop, hs⟩ := all_terms_sub hl ht
  have h := uf_found_subs hc₀
  refine freshId_prepared K hK _ ?_
  simp only [Cand.terms, Pbl.prepare, List.forall_mem_cons, List.not_mem_nil, false_implies, implies_true, and_true] at h ⊢
  exact ⟨⟨_, rfl, top, htop, subs_trans h.1 hs⟩, ⟨_, rfl, top, htop, subs_trans h.2.1 hs⟩, ⟨_, rfl, top, htop, subs_trans h.2.2 hs⟩⟩

/-- **C67 for signatures.** -/
theorem C67_signature_fresh_partial {K : Pbl F} (hK : K.Registered) {U : Euf F} {cs : List (Cand F)} (hcs : U.candidates K = some cs)
    {c : Cand F} (hc : c ∈ cs) :
    (∃ n, ∀ m, n ≤ m → K.freshId m c.terms = some (K.uId c)) ∧
      ∀ v, v ∈ (c.terms ++ K.tops).flatMap Fm.vars → v.id < K.uId c := by
  unfold Euf.candidates at hcs
  obtain ⟨l, hl, hcs⟩ := Option.bind_eq_some_iff.1 hcs
  obtain ⟨l', hl', rfl⟩ := Option.map_eq_some_iff.1 hcs
  rw [mem_uniq] at hc
  obtain ⟨c₀, hc₀, rfl⟩ := List.mem_map.1 hc
  obtain ⟨t, ht, b, hb, hcb⟩ := flatO_mem hl' hc₀
  obtain ⟨top, htop, hs⟩ := all_terms_sub hl ht
  have h := euf_found_subs hb hcb
  refine freshId_prepared K hK _ ?_
  simp only [Cand.terms, Pbl.prepare, List.forall_mem_cons, List.not_mem_nil, false_implies, implies_true, and_true] at h ⊢
  exact ⟨⟨_, rfl, top, htop, subs_trans h.1 hs⟩, ⟨_, rfl, top, htop, subs_trans h.2.1 hs⟩, ⟨_, rfl, top, htop, subs_trans h.2.2 hs⟩⟩

/-- **C67 for ciphertexts.** -/
theorem C67_cipher_fresh_partial {K : Pbl F} (hK : K.Registered) {X : Ctx F} {cs : List (DecCand F)} (hcs : X.candidates K = some cs)
    {c : DecCand F} (hc : c ∈ cs) :
    (∃ n, ∀ m, n ≤ m → K.freshId m c.terms = some (K.decId c)) ∧
      ∀ v, v ∈ (c.terms ++ K.tops).flatMap Fm.vars → v.id < K.decId c := by
  unfold Ctx.candidates at hcs
  obtain ⟨l, hl, rfl⟩ := Option.map_eq_some_iff.1 hcs
  rw [mem_uniq] at hc
  obtain ⟨c₀, hc₀, rfl⟩ := List.mem_map.1 hc
  obtain ⟨t, ht, hc₀⟩ := List.mem_flatMap.1 hc₀
  obtain ⟨top, htop, hs⟩ := all_terms_sub hl ht
  have h : c₀.cipher ∈ t.subs ∧ c₀.key ∈ t.subs := by
    unfold Ctx.found at hc₀
    split at hc₀
    swap
    · cases hc₀
    split at hc₀
    swap
    · cases hc₀
    rw [Option.mem_toList, Option.map_eq_some_iff] at hc₀
    obtain ⟨k, hk, rfl⟩ := hc₀
    rw [castArg_eq hk]
    exact ⟨subs_arg (List.mem_cons_self ..) (subs_self _),
      subs_arg (List.mem_cons_of_mem _ (List.mem_cons_self ..)) (subs_arg (List.mem_singleton_self _) (subs_self _))⟩
  refine freshId_prepared K hK _ ?_
  simp only [DecCand.terms, List.forall_mem_cons, List.not_mem_nil, false_implies, implies_true, and_true]
  exact ⟨⟨_, rfl, top, htop, subs_trans h.1 hs⟩, ⟨_, rfl, top, htop, subs_trans h.2 hs⟩⟩

/-! ### What is written in the contents of quantifier symbols -/

/-- Specification: a term written in the problem, possibly under a `forall`, an `exists` or a `find such that`, which
the parser turns into a symbol. -/
inductive Pbl.Written (K : Pbl F) : Fm F → Prop
  | top {t s} (ht : t ∈ K.tops) (hs : s ∈ t.subs) : Written K s
  | under {g args bound free content c s} (h : Written K (.app g args)) (hk : K.E.L.kind g = .taq bound free content)
      (hc : c ∈ content) (hs : s ∈ c.subs) : Written K s

end Cry

namespace Cry.CEx
open Fm

/-- The check under a quantifier: `p()` stands for it. -/
def hidden (m : Mode) : Pbl Z :=
  { K m true with
    E := E (fun f => match f with
      | .p => .taq [x0] [] [check m]
      | f => kind m f) true
    tops := [.app .p []] }

/-- **Verifications under quantifiers are forgotten.** A check written under a quantifier of the term algebra gives no
candidate, hence no axiom. -/
theorem C62_hidden_counterexample :
    (∃ (K : Pbl Z) (U : Uf Z) (m s k : Fm Z), K.Written (.app U.verify [s, m, .app K.cast [k]]) ∧
      U.candidates K = some [] ∧ U.preprocess K = some []) ∧
    (∃ (K : Pbl Z) (U : Euf Z) (m s k : Fm Z), K.Written (.app U.verify [s, m, .app U.pk [.app K.cast [k]]]) ∧
      U.candidates K = some [] ∧ U.preprocess K = some []) := by
  constructor
  · exact ⟨hidden .mac, U .mac, .app .p [], inp x0, .app .k [], .under (.top (List.mem_singleton_self _) (subs_self _))
      (show (hidden .mac).E.L.kind .p = _ from rfl) (List.mem_singleton_self _) (by decide +kernel), by decide +kernel, by decide +kernel⟩
  · exact ⟨hidden .sign, W, .app .p [], inp x0, .app .k [], .under (.top (List.mem_singleton_self _) (subs_self _))
      (show (hidden .sign).E.L.kind .p = _ from rfl) (List.mem_singleton_self _) (by decide +kernel), by decide +kernel, by decide +kernel⟩

theorem plain_registered (m : Mode) (b : Bool) : (K m b).Registered := by
  refine registered_of_applied ?_
  intro top _ f _ p hp
  have : replaced (kind m f) = [] := by cases f <;> rfl
  rw [show (K m b).E.L.kind f = kind m f from rfl, this] at hp
  cases hp

/-- Cases for C67. -/
example : (∃ n, ∀ m, n ≤ m → (K .mac true).freshId m cand.terms = some 2) :=
  (C67_mac_fresh_partial (plain_registered .mac true) ((cands .mac true).1 (by decide)) (List.mem_singleton_self _)).1
example : (∃ n, ∀ m, n ≤ m → (K .sign true).freshId m cand.terms = some 2) :=
  (C67_signature_fresh_partial (plain_registered .sign true) ((cands .sign true).2 rfl) (List.mem_singleton_self _)).1

/-- A check whose message is a quantification `g(x)` over `input(s(x))`. -/
def quantified : Pbl Z :=
  { K .mac true with
    E := E (fun f => match f with
      | .g => .taq [] [x0] [inp x0]
      | f => kind .mac f) true
    tops := [.app .verify [inp x0, .app .g [.var x0], kF]] }

/-- Case for C67: the parameter of the symbol is a variable of the problem, and is not replaced. -/
example : ∃ n, ∀ m, n ≤ m → quantified.freshId m [.app .g [.var ⟨1, .index⟩], inp ⟨1, .index⟩, .app .k []] = some 2 := by
  refine (C67_mac_fresh_partial (K := quantified) (U := U .mac) (registered_of_applied ?_)
    (cs := [⟨.app .g [.var ⟨1, .index⟩], inp ⟨1, .index⟩, .app .k []⟩]) (by decide +kernel) (List.mem_singleton_self _)).1
  intro top _ f _ p hp
  have hg : f = .g := by
    revert hp
    cases f <;> first | (intro _; rfl) | (intro hp; cases hp)
  subst hg
  have hp : p = (x0, inp x0) := by
    have : p ∈ [(x0, inp x0)] := hp
    simpa using this
  subst hp
  exact ⟨_, List.mem_singleton_self _, [.var x0], by decide +kernel, by simp⟩

/-- A check whose message is a quantification `g(y)` over a closed formula, with a parameter that is not a variable of
the problem. -/
def unregistered : Pbl Z :=
  { K .mac true with
    E := E (fun f => match f with
      | .g => .taq [] [⟨3, .index⟩] [.app .p []]
      | f => kind .mac f) true
    tops := [.app .verify [.app .p [], .app .g [.var ⟨1, .index⟩], kF]] }

/-- **The number may be taken.** Without `Registered`: the variable of the candidate is replaced, and the number computed
for the fresh variable is its own. -/
theorem C67_clash_counterexample : ∃ (K : Pbl Z) (U : Uf Z) (c : Cand Z) (v : Var) (n : Nat), U.candidates K = some [c] ∧
    v ∈ c.terms.flatMap Fm.vars ∧ ∀ m, n ≤ m → K.freshId m c.terms = some v.id := by
  refine ⟨unregistered, U .mac, ⟨.app .g [.var ⟨3, .index⟩], .app .p [], .app .k []⟩, ⟨3, .index⟩, 10, by decide +kernel,
    by decide +kernel, fun m hm => ?_⟩
  have h1 : ∀ t l, expandVars unregistered.E.L.kind 10 t = some l → expandVars unregistered.E.L.kind m t = some l :=
    fun t l h => runPile_mono _ _ _ _ _ h hm
  have h2 : expandVars unregistered.E.L.kind m (.app .g [.var ⟨3, .index⟩]) = some [] := h1 _ _ rfl
  have h3 : expandVars unregistered.E.L.kind m (.app .p []) = some [] := h1 _ _ rfl
  have h4 : expandVars unregistered.E.L.kind m (.app .k []) = some [] := h1 _ _ rfl
  simp only [Pbl.freshId, Cand.terms, Ev.flatO, SmtM.mapO, h2, h3, h4]
  decide +kernel

end Cry.CEx

namespace Cry.IEx
open Fm

/-- The decryption under a quantifier: `p()` stands for it. -/
def hidden : Pbl Z :=
  { K .good with
    E := E (fun f => match f with
      | .p => .taq [x0] [] [.app .dec [inp x0, .app .cast [.app .k []]]]
      | f => kind .good f)
    tops := [.app .p []] }

/-- **Decryptions under quantifiers are forgotten.** -/
theorem C64_hidden_counterexample : ∃ (K : Pbl Z) (X : Ctx Z) (c k : Fm Z), K.Written (.app X.dec [c, .app K.cast [k]]) ∧
    X.candidates K = some [] ∧ X.preprocess K = some [] :=
  ⟨hidden, X, inp x0, .app .k [], .under (.top (List.mem_singleton_self _) (subs_self _))
    (show hidden.E.L.kind .p = _ from rfl) (List.mem_singleton_self _) (by decide +kernel), by decide +kernel, by decide +kernel⟩

/-- Case for C67. -/
example : (∃ n, ∀ m, n ≤ m → (K .good).freshId m cand.terms = some 2) := by
  refine (C67_cipher_fresh_partial (registered_of_applied ?_) (cands .good) (List.mem_singleton_self _)).1
  intro top _ f _ p hp
  have : replaced (kind .good f) = [] := by cases f <;> rfl
  rw [show (K .good).E.L.kind f = kind .good f from rfl, this] at hp
  cases hp

end Cry.IEx
end CV
