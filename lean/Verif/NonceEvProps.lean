import Verif.SubtermProps
set_option linter.unusedSimpArgs false
/-
C46 without free constructors. In the evaluated realm, which is the default (cli.rs:305), messages are bitstrings: the
same value may be obtained in several ways, so that a name cannot be said to occur in a value or not. The axioms
about nonces are shown true for another reading of the subterm predicate: `n` is a subterm of `d` when `d` cannot be
computed without `n`. Paths are relative to /repo/crates/cryptovampire/src.
-/
namespace CV
namespace Cry
open Dep SmtM Ev Fm
variable {F D : Type}

/-! ## Specification -/

/-- SPECIFICATION. The value `d` can be computed without the name `n`: it is a value of a sort `gr` (an index, a time
point, …) or another name; or it is obtained with a function `ta` from values that can; or it is the value of a
macro or of a quantifier symbol and all that it is computed from can. -/
inductive Avoids (K : Pbl F) (M : Str F D) (ta : F → Prop) (gr : Srt → Prop) (n : D) : D → Prop
  | base {s d} (hs : gr s) (h : M.dom s d ∨ ∃ g l, K.E.L.out g = some s ∧ d = M.fn g l) : Avoids K M ta gr n d
  | name {d} (h : M.dom .name d ∨ ∃ g l, K.E.L.out g = some .name ∧ d = M.fn g l) (hne : d ≠ n) : Avoids K M ta gr n d
  | app {f l} (hf : ta f) (hk : K.E.L.kind f = .plain) (hl : ∀ a ∈ l, Avoids K M ta gr n a) : Avoids K M ta gr n (M.fn f l)
  | opened {f l} (hk : K.E.L.kind f ≠ .plain) (hs : ∀ s, K.E.L.kind f ≠ .step s) (hl : ∀ a ∈ l, Avoids K M ta gr n a)
      (hy : ∀ y, Opens K.E.L K.steps M f l y → Avoids K M ta gr n (Fm.eval M y.2 y.1)) : Avoids K M ta gr n (M.fn f l)

/-- SPECIFICATION. The symbols of the contents: functions `ta`, macros and quantifier symbols, names, and symbols of the
sorts `gr`. -/
def Comprised (K : Pbl F) (ta : F → Prop) (gr : Srt → Prop) (f : F) : Prop :=
  (ta f ∧ K.E.L.kind f = .plain) ∨ (K.E.L.kind f ≠ .plain ∧ ∀ s, K.E.L.kind f ≠ .step s) ∨
  K.E.L.out f = some .name ∨ ∃ s, gr s ∧ K.E.L.out f = some s

/-- SPECIFICATION. The sorts for which a subterm predicate is meant: those of the term algebra and names. For the
others, the code asserts that nothing is a subterm. -/
def Meant (I : Info F) (o : Option Srt) : Prop := ∀ s, o = some s → I.taSort s = true ∨ s = .name

/-- SPECIFICATION. The predicates are read as "cannot be computed without". -/
def ReadsEv (K : Pbl F) (I : Info F) (M : Str F D) (ta : F → Prop) (gr : Srt → Prop) (sym : Option Srt → Option F) : Prop :=
  ∀ o f, sym o = some f → ∀ x d, M.dom .name x → (M.truth (M.fn f [x, d]) ↔ Meant I o ∧ ¬ Avoids K M ta gr x d)

/-- SPECIFICATION. What is assumed of the symbols and sorts: default functions are in `ta` and are not macros; their
arguments are of the sorts for which the predicate is meant, or `gr`; macros and quantifier symbols that are asked
about are so; the cast of a name is a message, and is in `ta`. -/
structure InfoEv (K : Pbl F) (I : Info F) (ta : F → Prop) (gr : Srt → Prop) : Prop where
  dflt : ∀ f, I.dflt f = true → ta f ∧ K.E.L.kind f = .plain
  args : ∀ f ss, I.dflt f = true → I.insort f = some ss → ∀ s ∈ ss, I.taSort s = true ∨ s = .name ∨ gr s
  macros : ∀ f ∈ K.E.functions, I.ta f = true → I.dflt f = false → K.E.L.kind f ≠ .plain ∧ ∀ s, K.E.L.kind f ≠ .step s
  cast : ta K.cast ∧ K.E.L.kind K.cast = .plain ∧ K.E.L.out K.cast = some .message
  message : I.taSort .message = true

/-- SPECIFICATION. Nonces cannot be guessed: a message with the value of a name cannot be computed without it. -/
def Unguessable (K : Pbl F) (M : Str F D) (ta : F → Prop) (gr : Srt → Prop) : Prop :=
  ∀ n m, M.dom .name n → K.E.val M .message (M.fn K.cast [n]) = K.E.val M .message m → ¬ Avoids K M ta gr n m

/-- SPECIFICATION. Unfolding the macros of the contents ends. -/
def Ends (K : Pbl F) (M : Str F D) : Prop :=
  ∀ f l y, Opens K.E.L K.steps M f l y → Acc (fun b a => Inside K.E.L K.steps M ArgOf (fun _ => True) a b) y

/-! ## Proofs -/

section
variable {K : Pbl F} {I : Info F} {M : Str F D} {ta : F → Prop} {gr : Srt → Prop} {sym : Option Srt → Option F}

/-- A term in which the name does not occur has a value that can be computed without it. -/
theorem avoids_of_term (hp : ProtOK K.E.L K.steps K.cells) (B : Bodies K (Comprised K ta gr) gr) {n : D} :
    ∀ x : Clo F D, Acc (fun b a => Inside K.E.L K.steps M ArgOf (fun _ => True) a b) x → Over (Comprised K ta gr) x.1 →
      (∀ v ∈ x.1.vars, Avoids K M ta gr n (x.2 v.id)) →
      (∀ g args κ, Occurs K.E.L K.steps M ArgOf (fun _ => True) x (.app g args, κ) → K.E.L.out g = some .name →
        Fm.eval M κ (.app g args) ≠ n) → Avoids K M ta gr n (Fm.eval M x.2 x.1) := by
  intro x hx
  induction hx with
  | intro x _ ih =>
  obtain ⟨t, ρ⟩ := x
  intro ho hv hn
  cases ho with
  | var v => exact hv v (by simp [Fm.vars])
  | @app f args hf hargs =>
  have harg : ∀ a ∈ args, Avoids K M ta gr n (Fm.eval M ρ a) := fun a ha =>
    ih (a, ρ) (.inl (.inl (.part (.mk ha)))) (hargs a ha) (fun v hv' => hv v (vars_arg ha hv'))
      (fun g l κ h => hn g l κ (.head (.inl (.inl (.part (.mk ha)))) h))
  have hl : ∀ d ∈ args.map (Fm.eval M ρ), Avoids K M ta gr n d := by
    intro d hd
    obtain ⟨a, ha, rfl⟩ := List.mem_map.1 hd
    exact harg a ha
  have he : Fm.eval M ρ (.app f args) = M.fn f (args.map (Fm.eval M ρ)) := by simp only [Fm.eval, evals_map]
  rcases hf with ⟨h1, h2⟩ | ⟨h1, h2⟩ | h1 | ⟨s, hs, h1⟩
  · rw [he]; exact .app h1 h2 hl
  · rw [he]
    refine .opened h1 h2 hl fun y hy => ?_
    obtain ⟨hov, hvars⟩ := B.content hp hy
    refine ih y hy.inside.1 hov (fun v hv' => ?_) (fun g l κ h => hn g l κ (.head hy.inside.1 h))
    rcases hvars v hv' with ⟨s, hs, hd⟩ | ⟨h, _⟩
    · exact .base hs (.inl hd)
    · exact hl _ h
  · exact .name (.inr ⟨f, _, h1, he⟩) (hn f args ρ .refl h1)
  · exact .base hs (.inr ⟨f, _, h1, he⟩)

theorem ReadsEv.truth (hR : ReadsEv K I M ta gr sym) {x m p : Fm F} {ρ : Valn D} (hx : M.dom .name (Fm.eval M ρ x))
    (h : K.sub (nonceSub sym) x m = some p) :
    M.truth (Fm.eval M ρ p) ↔ Meant I (K.E.L.sortOf m) ∧ ¬ Avoids K M ta gr (Fm.eval M ρ x) (Fm.eval M ρ m) := by
  simp only [Pbl.sub, subFormula, nonceSub, if_true, Option.map_eq_some_iff] at h
  obtain ⟨f, hf, rfl⟩ := h
  simp only [Fm.eval, evals]
  exact hR _ _ hf _ _ hx

/-- **C46: the axiom of a default function is true** when the predicate is read as "cannot be computed without". -/
theorem C46_ev_function [DecidableEq F] (hl : Logical K.E M) (hR : ReadsEv K I M ta gr sym) (hI : InfoEv K I ta gr)
    {axs : List (Fm F)} (h : K.fnAxs I (nonceSub sym) [] = some axs) (ρ : Valn D) (φ : Fm F) (hφ : φ ∈ axs) :
    M.truth (Fm.eval M ρ φ) := by
  obtain ⟨f, hf, h⟩ := mapO_mem h φ hφ
  simp only [List.mem_filter] at hf
  obtain ⟨⟨_, hd⟩, _⟩ := hf
  obtain ⟨hta, hk⟩ := hI.dflt f hd
  obtain ⟨ss, hss, h⟩ := Option.bind_eq_some_iff.1 h
  dsimp only at h
  split at h
  swap
  · cases h
  rename_i ds p hds hp
  cases h
  rw [truth_mkForall]
  have hnd : ((sortsToVariables 1 ss ++ [(⟨0, (nonceSub sym).A.sort⟩ : Var)]).map Var.id).Nodup := by
    rw [List.map_append, List.nodup_append]
    refine ⟨sortsToVariables_nodup _ _, by simp, ?_⟩
    intro a ha b hb
    rw [sortsToVariables_ids] at ha
    simp only [List.mem_map, List.mem_range, List.map_cons, List.map_nil, List.mem_singleton] at ha hb
    obtain ⟨_, _, rfl⟩ := ha
    omega
  refine quantVal_all_of M _ _ ρ hnd (fun τ _ hdom => ?_)
  have hx : M.dom .name (Fm.eval M τ (.var ⟨0, .name⟩)) := hdom ⟨0, .name⟩ (by simp [nonceSub, Aux.default])
  rw [Fm.eval, evals, evals, evals, hl.imp]
  intro ht
  have hc := ((hR.truth (x := .var ⟨0, .name⟩) hx hp).1 ht).2
  have hap : Fm.eval M τ (.app f ((sortsToVariables 1 ss).map .var)) = M.fn f ((sortsToVariables 1 ss).map (fun v => τ v.id)) := by
    simp only [Fm.eval, evals_map, List.map_map]; rfl
  rw [hap] at hc
  have hors : M.truth (Fm.eval M τ (K.E.L.ors ds)) := by
    by_contra hno
    refine hc (.app hta hk fun a ha => ?_)
    obtain ⟨v, hv, rfl⟩ := List.mem_map.1 ha
    by_contra hna
    obtain ⟨q, hq, hq'⟩ := mapO_mem' hds v hv
    refine hno ?_
    simp only [Lang.ors, Fm.eval, evals_map]
    rw [hl.sem.or]
    refine ⟨_, List.mem_map_of_mem hq, (hR.truth (x := .var ⟨0, .name⟩) hx hq').2 ⟨?_, hna⟩⟩
    intro s hs
    rw [sortOf_var] at hs
    cases hs
    have hs' : v.sort ∈ ss := by
      have := List.mem_map_of_mem (f := Var.sort) hv
      rwa [sortsToVariables_sorts] at this
    rcases hI.args f ss hd hss v.sort hs' with h | h | h
    · exact .inl h
    · exact .inr h
    · exact absurd (.base h (.inl (hdom v (List.mem_append_left _ hv)))) hna
  have hboth : M.truth (Fm.eval M τ (.app K.E.L.or [K.E.L.ors ds,
      K.E.L.meq (.var ⟨0, (nonceSub sym).A.sort⟩) (.app f ((sortsToVariables 1 ss).map .var))])) := by
    rw [Fm.eval, evals, evals, evals, hl.sem.or]
    exact ⟨_, List.mem_cons_self, hors⟩
  split
  · exact hboth
  · split
    · exact hboth
    · exact hors

/-- **C46: nothing is a subterm in the other sorts.** -/
theorem C46_ev_not_of_sort (hl : Logical K.E M) (hR : ReadsEv K I M ta gr sym) {s : Srt} (hs : I.taSort s = false) (hsn : s ≠ .name)
    {φ : Fm F} (h : K.notOfSort (nonceSub sym) s = some φ) (ρ : Valn D) : M.truth (Fm.eval M ρ φ) := by
  obtain ⟨p, hp, rfl⟩ := Option.map_eq_some_iff.1 h
  rw [truth_mkForall]
  refine quantVal_all_of M _ _ ρ (by simp) (fun τ _ hdom => ?_)
  have hx : M.dom .name (τ 0) := hdom ⟨0, .name⟩ (by simp [nonceSub, Aux.default])
  simp only [Fm.eval, evals]
  rw [hl.not, hR.truth (x := .var ⟨0, .name⟩) hx hp]
  rintro ⟨hm, _⟩
  rcases hm s (sortOf_var _ _) with h | h
  · rw [hs] at h; cases h
  · exact hsn h

/-- **C46: the axiom of a macro or quantifier symbol is true** when the predicate is read as "cannot be computed
without": what it cannot be computed without is found by the search. `_partial`: for symbols with `SpecialOK`, as
`C46_special_partial`. -/
theorem C46_ev_special_partial [DecidableEq F] (hS : Setting K M) (B : Bodies K (Comprised K ta gr) gr) (hE : Ends K M)
    (hR : ReadsEv K I M ta gr sym) {f : F} (hk : K.E.L.kind f ≠ .plain ∧ ∀ s, K.E.L.kind f ≠ .step s)
    (hf : SpecialOK K I gr (nonceSub sym) .all true f) {φ : Fm F} (h : K.specialAx I (nonceSub sym) .all true f = some φ)
    (ρ : Valn D) : M.truth (Fm.eval M ρ φ) := by
  refine special_true (part := ArgOf) hS ArgOf.proper (default_shrinks _) ArgOf.down hf h ρ fun ss p τ hss hp hdom ht => ?_
  obtain ⟨hne, hf⟩ := hf
  obtain ⟨hgr, _⟩ := hf ss hss
  have hx : M.dom .name (Fm.eval M τ (.var (K.spX I (nonceSub sym)))) := hdom (K.spX I (nonceSub sym)) (by simp)
  have hc := ((hR.truth hx hp).1 ht).2
  by_contra hno
  have hap : Fm.eval M τ (.app f ((K.spVars I ss).map .var)) = M.fn f (((K.spVars I ss).map Fm.var).map (Fm.eval M τ)) := by
    simp only [Fm.eval, evals_map]
  have hl : ∀ a ∈ ((K.spVars I ss).map Fm.var).map (Fm.eval M τ), Avoids K M ta gr (Fm.eval M τ (.var (K.spX I (nonceSub sym)))) a := by
    intro a ha
    obtain ⟨b, hb, rfl⟩ := List.mem_map.1 ha
    obtain ⟨v, hv, rfl⟩ := List.mem_map.1 hb
    refine .base (hgr v.sort ?_) (.inl (hdom v (List.mem_append_left _ hv)))
    have := List.mem_map_of_mem (f := Var.sort) hv
    rwa [Pbl.spVars, sortsToVariables_sorts] at this
  rw [hap] at hc
  refine hc (.opened hk.1 hk.2 hl fun y hy => ?_)
  obtain ⟨hov, hvars⟩ := B.content hS.prot hy
  refine avoids_of_term hS.prot B y (hE _ _ _ hy) hov (fun v hv => ?_) (fun g args κ ho hg hv => hno ?_)
  · rcases hvars v hv with ⟨s, hs, hd⟩ | ⟨h, _⟩
    · exact .base hs (.inl hd)
    · exact hl _ h
  · refine ⟨g, args, κ, .inl ⟨rfl, (occurs_notExec hS ArgOf.proper ?_ (.head hy.inside.1 ho)).2⟩, hg, hv⟩
    intro g hg
    cases hg with
    | here => exact hne
    | arg ha hg =>
      obtain ⟨v, _, rfl⟩ := List.mem_map.1 ha
      cases hg

/-- **C46: names**, when the predicate is read as "cannot be computed without". -/
theorem C46_ev_names (hl : Logical K.E M) (hR : ReadsEv K I M ta gr sym) (hI : InfoEv K I ta gr)
    (hU : Unguessable K M ta gr) (ρ : Valn D) (φ : Fm F) :
    (K.nameAx (nonceSub sym) = some φ → M.truth (Fm.eval M ρ φ)) ∧ (K.evalAx = some φ → M.truth (Fm.eval M ρ φ)) ∧
    (K.groundAx (nonceSub sym) = some φ → M.truth (Fm.eval M ρ φ)) := by
  have hcs : ∀ v, K.E.L.sortOf (.app K.cast [.var v]) = some .message := fun v => sortOf_app hI.cast.2.2 _
  refine ⟨fun h => ?_, fun h => ?_, fun h => ?_⟩
  · obtain ⟨p, hp, rfl⟩ := Option.map_eq_some_iff.1 h
    rw [truth_mkForall]
    refine quantVal_all_of M _ _ ρ (by simp) (fun τ _ hdom => ?_)
    have h0 : M.dom .name (τ 0) := hdom ⟨0, .name⟩ (by simp)
    have h1 : M.dom .name (τ 1) := hdom ⟨1, .name⟩ (by simp)
    simp only [Fm.eval, evals, Lang.meq]
    rw [hl.imp, hl.sem.eq, hR.truth (x := .var ⟨0, .name⟩) h0 hp]
    rintro ⟨_, h⟩
    by_contra hne
    exact h (.name (.inl h1) (fun e => hne e.symm))
  · simp only [Pbl.evalAx] at h
    split at h
    swap
    · cases h
    rename_i a b ha hb
    cases h
    rw [truth_mkForall]
    refine quantVal_all_of M _ _ ρ (by simp) (fun τ _ hdom => ?_)
    have h0 : M.dom .name (τ 0) := hdom ⟨0, .name⟩ (by simp)
    have h1 : M.dom .name (τ 1) := hdom ⟨1, .name⟩ (by simp)
    simp only [Fm.eval, evals, Lang.meq]
    rw [hl.imp, hl.sem.eq, hl.sem.eq, eval_val M (hcs _) ha, eval_val M (hcs _) hb]
    simp only [Fm.eval, evals]
    intro he
    by_contra hne
    refine hU _ _ h0 he (.app hI.cast.1 hI.cast.2.1 (List.forall_mem_singleton.2 (.name (.inl h1) (fun e => hne e.symm))))
  · simp only [Pbl.groundAx] at h
    split at h
    swap
    · cases h
    rename_i a b p ha hb hp
    cases h
    rw [truth_mkForall]
    refine quantVal_all_of M _ _ ρ (by simp) (fun τ _ hdom => ?_)
    have h0 : M.dom .name (τ 0) := hdom ⟨0, .name⟩ (by simp)
    simp only [Fm.eval, evals, Lang.meq]
    rw [hl.imp, hl.sem.eq, hR.truth (x := .var ⟨0, .name⟩) h0 hp, eval_val M (hcs _) ha, eval_val M (sortOf_var _ _) hb]
    refine fun he => ⟨fun s hs => ?_, hU _ _ h0 he⟩
    rw [sortOf_var] at hs
    cases hs
    exact .inl hI.message

/-- **C46: the axioms about nonces are true, without assuming that symbols are free**: all of them, when nonces cannot
be guessed and the subterm predicates are read as "cannot be computed without". This covers the evaluated realm.
`_partial`: except those of the macros and quantifier symbols that are not as `SpecialOK` says; the protocol is as in
`Setting`. -/
theorem C46_nonce_evaluated_partial [DecidableEq F] (hS : Setting K M) (B : Bodies K (Comprised K ta gr) gr) (hE : Ends K M)
    (hR : ReadsEv K I M ta gr sym) (hI : InfoEv K I ta gr) (hU : Unguessable K M ta gr)
    {vampire : Bool} {axs : List (Fm F)} {g : Fm F} (h : K.nonce I vampire sym = some (axs, g)) (ρ : Valn D) :
    (∀ φ ∈ axs, M.truth (Fm.eval M ρ φ) ∨ ∃ f ∈ K.E.functions, I.dflt f = false ∧
      ¬ SpecialOK K I gr (nonceSub sym) .all true f ∧ K.specialAx I (nonceSub sym) .all true f = some φ) ∧
    M.truth (Fm.eval M ρ g) := by
  have hl := hS.logical
  unfold Pbl.nonce at h
  dsimp only at h
  split at h
  swap
  · cases h
  rename_i a b c d g' ha hb hc hd hg
  cases h
  refine ⟨fun φ hφ => ?_, (C46_ev_names hl hR hI hU ρ _).2.2 hg⟩
  rcases List.mem_append.1 hφ with hφ | hφ
  · rcases List.mem_append.1 hφ with hφ | hφ
    · cases vampire with
      | true => simp only [if_true, Option.some.injEq] at ha; subst ha; cases hφ
      | false =>
        simp only [Bool.false_eq_true, if_false] at ha
        split at ha
        swap
        · cases ha
        rename_i a' b' ha' hb'
        cases ha
        rcases List.mem_append.1 hφ with hφ | hφ
        · exact .inl (C46_ev_function hl hR hI ha' ρ φ hφ)
        · obtain ⟨s, hs, h⟩ := mapO_mem hb' φ hφ
          simp only [Pbl.nonceSorts, List.mem_filter, Bool.not_eq_true', Bool.or_eq_false_iff, decide_eq_false_iff_not] at hs
          exact .inl (C46_ev_not_of_sort hl hR hs.2.2 hs.2.1 h ρ)
    · obtain ⟨f, hf, h⟩ := mapO_mem hb φ hφ
      simp only [List.mem_filter, Bool.and_eq_true, Bool.or_eq_true, Bool.not_eq_true', List.contains_nil,
        Bool.false_eq_true, or_false] at hf
      by_cases hsp : SpecialOK K I gr (nonceSub sym) .all true f
      · exact .inl (C46_ev_special_partial hS B hE hR (hI.macros f hf.1 hf.2.1 hf.2.2) hsp h ρ)
      · exact .inr ⟨f, hf.1, hf.2.2, hsp, h⟩
  · simp only [List.mem_cons, List.not_mem_nil, or_false] at hφ
    rcases hφ with rfl | rfl
    · exact .inl ((C46_ev_names hl hR hI hU ρ _).1 hc)
    · exact .inl ((C46_ev_names hl hR hI hU ρ _).2.1 hd)

end

end Cry
end CV
