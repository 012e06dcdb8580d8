import Verif.NonceEvProps
import Verif.SubtermEx
set_option linter.unusedSimpArgs false
set_option linter.constructorNameAsVariable false
/-
A problem in the evaluated realm, and a structure in which symbols are not free, that meet the hypotheses of
`C46_nonce_evaluated_partial`.
-/
namespace CV
namespace Cry
open Dep SmtM Ev Fm

section
variable {F D : Type} {K : Pbl F} {M M' : Str F D} {S ta : F → Prop} {gr : Srt → Prop}

/-- `Avoids` does not depend on how the predicates themselves are read. -/
theorem Agree.avoids (h : Agree K.E.L K.steps M M' S) (hta : ∀ f, ta f → S f)
    (hout : ∀ f s, K.E.L.out f = some s → gr s ∨ s = .name → S f) {n d : D} (ha : Avoids K M ta gr n d) :
    Avoids K M' ta gr n d := by
  induction ha with
  | base hs hd =>
    refine .base hs (hd.imp (fun h' => by rw [← h.dom]; exact h') ?_)
    rintro ⟨g, l, h1, rfl⟩
    exact ⟨g, l, h1, by rw [h.fn _ (hout g _ h1 (.inl hs))]⟩
  | name hd hne =>
    refine .name (hd.imp (fun h' => by rw [← h.dom]; exact h') ?_) hne
    rintro ⟨g, l, h1, rfl⟩
    exact ⟨g, l, h1, by rw [h.fn _ (hout g _ h1 (.inr rfl))]⟩
  | app hf hk _ ih => rw [h.fn _ (hta _ hf)]; exact .app hf hk ih
  | opened hk hs _ _ ihl ihy =>
    rw [h.fn _ (h.kind _ hk)]
    refine .opened hk hs ihl fun y hy => ?_
    obtain ⟨h1, h2⟩ := h.symm.opens hy
    rw [h.symm.eval h2]
    exact ihy y h1

end

namespace VEx
open TEx

/-- `g` is the identity: `g(m)` and `m` have the same value. -/
noncomputable def fn (R : V → Tm V → Tm V → Prop) : V → List (Tm V) → Tm V
  | .g, [a] => a
  | .evm, [a] => a
  | f, l => TEx.fn R f l

/-- Messages are bitstrings. -/
def dom : Srt → Tm V → Prop
  | .index, d => ∃ n, d = .atom n
  | .step, d => ∃ l, d = .node .s l
  | .name, d => ∃ l, d = .node .k l
  | _, _ => True

noncomputable def str (R : V → Tm V → Tm V → Prop) : Str V (Tm V) where
  fn := fn R
  truth := Tm.truth
  ofProp := .prop
  truth_ofProp _ := Iff.rfl
  dom := dom

abbrev E : Ev.Cfg V where
  L := lang (kind false)
  not := .not
  ite := .ite
  evs := [(.message, .evm)]
  evalSort s := if s = .message then some .bitstring else none
  kind _ := .other
  functions := functions
  sorts := [.message, .condition, .index, .name, .step, .bitstring]
  symbolic := false
  noBitstring := false
  legacy := false
  rewriteFn _ := .p
  skolem _ _ := .p

abbrev K : Pbl V where
  E := E
  cast := .cast
  eqTa := .eqTa
  toBits := .evm
  steps := [stp false]
  cells := [cel false]
  G := graph false
  tops := []
  fuel := 100
  mfuel := 10

def info : Info V where
  dflt f := decide (f ∈ [V.mac, .verify, .cast, .p, .g, .ok, .bits])
  ta := taB
  insort := insort false
  taSort s := s = .message || s = .condition
  evaluated s := s = .bool || s = .bitstring
  ins := []

/-- One predicate for each sort: `sub` for messages, `key` for conditions, `main` for names, `skey` for the others. -/
def sym : Option Srt → Option V
  | some .message => some .sub
  | some .condition => some .key
  | some .name => some .main
  | some .bitstring => some .ckey
  | some _ => some .skey
  | none => none

theorem fn_eq (R R' : V → Tm V → Tm V → Prop) {f : V} (h : S f) (l : List (Tm V)) : (str R).fn f l = (str R').fn f l := by
  cases f <;> first | rfl | (match l with | [] => rfl | [_] => rfl | _ :: _ :: _ => rfl) | (simp [S, special] at h)

theorem fn_node (R : V → Tm V → Tm V → Prop) {f : V} (h : S f) (hg : f ≠ .g) (l : List (Tm V)) : (str R).fn f l = .node f l := by
  cases f <;> first | rfl | (simp [S, special] at h; done) | exact absurd rfl hg

theorem agreeR (R R' : V → Tm V → Tm V → Prop) : Agree (lang (kind false)) [stp false] (str R) (str R') S where
  dom := rfl
  truth := rfl
  fn f hf := by funext l; exact fn_eq _ _ hf l
  lt := rfl
  kind := kind_S false
  step := List.forall_mem_singleton.2 ⟨rfl, step_over false⟩
  cell f c h a ha := by
    obtain rfl := kind_cell h
    obtain ⟨h1, _, h2⟩ := content_over false a ha
    exact ⟨by rw [h1]; rfl, h2⟩
  taq _ _ _ _ h := (taq_over false h).1

noncomputable abbrev M0 : Str V (Tm V) := str fun _ _ _ => False

def rel : V → Tm V → Tm V → Prop
  | .sub, x, d | .key, x, d | .main, x, d => ¬ Avoids K M0 ta gr x d
  | _, _, _ => False

noncomputable abbrev M : Str V (Tm V) := str rel

theorem out_S (f : V) (s : Srt) (h : (lang (kind false)).out f = some s) (hs : gr s ∨ s = .name) : S f := by
  cases h
  revert hs
  cases f <;> simp [gr, out, S, special]

theorem avoids_iff {n d : Tm V} : Avoids K M0 ta gr n d ↔ Avoids K M ta gr n d :=
  ⟨Agree.avoids (agreeR _ _) ta_S out_S, Agree.avoids (agreeR _ _) ta_S out_S⟩

theorem reads : ReadsEv K info M ta gr sym := by
  intro o f e x d _
  rw [← avoids_iff]
  have hyes : ∀ s, info.taSort s = true ∨ s = .name → Meant info (some s) := by
    intro s h s' e; cases e; exact h
  have hno : ∀ s, info.taSort s = false → s ≠ .name → ¬ Meant info (some s) := by
    intro s h h' hm
    rcases hm s rfl with h'' | h''
    · rw [h] at h''; cases h''
    · exact h' h''
  cases o with
  | none => cases e
  | some s =>
    cases s <;> cases e
    case some.message.refl => exact ⟨fun h => ⟨hyes _ (.inl rfl), h⟩, fun h => h.2⟩
    case some.condition.refl => exact ⟨fun h => ⟨hyes _ (.inl rfl), h⟩, fun h => h.2⟩
    case some.name.refl => exact ⟨fun h => ⟨hyes _ (.inr rfl), h⟩, fun h => h.2⟩
    all_goals exact ⟨fun h => h.elim, fun h => absurd h.1 (hno _ rfl (by simp))⟩

theorem logical : Logical E M := by
  refine ⟨⟨?_, ?_, ?_, ?_⟩, ?_, ?_, ?_, ?_⟩
  · intro a b; exact Iff.rfl
  · intro l; exact Iff.rfl
  · intro l; exact Iff.rfl
  · exact trivial
  · intro a b; exact Iff.rfl
  · intro a; exact Iff.rfl
  · intro c a b h; exact if_pos h
  · intro c a b h; exact if_neg h

theorem setting : Setting K M where
  logical := logical
  dom s := by
    cases s with
    | name => exact ⟨.node .k [], [], rfl⟩
    | step => exact ⟨.node .s [], [], rfl⟩
    | index => exact ⟨.atom 0, 0, rfl⟩
    | _ => exact ⟨.atom 0, trivial⟩
  trans := ord_trans
  prot := prot false
  good := good false
  own := own false
  visible := (TEx.setting false).visible
  inputs := (TEx.setting false).inputs
  graph := built false
  stepExec := (TEx.setting false).stepExec
  cellExec := (TEx.setting false).cellExec
  taqExec := (TEx.setting false).taqExec
  evaluated _ _ := rfl

theorem comprised {f : V} (h : S f) : Comprised K ta gr f := by
  cases f <;> first
    | (simp [S, special] at h; done)
    | exact .inl ⟨rfl, rfl⟩
    | exact .inr (.inr (.inl rfl))
    | exact .inr (.inr (.inr ⟨.step, .inr rfl, rfl⟩))
    | exact .inr (.inl ⟨nofun, nofun⟩)

theorem Over.mono {F : Type} {S S' : F → Prop} (h : ∀ f, S f → S' f) {t : Fm F} (ht : Over S t) : Over S' t := by
  induction ht with
  | var v => exact .var v
  | app hf _ ih => exact .app (h _ hf) ih

theorem bodies : Bodies K (Comprised K ta gr) gr where
  step s hs := by
    obtain ⟨h1, h2, h3⟩ := (TEx.world false (.inl rfl)).step s hs
    exact ⟨Over.mono (fun _ h => comprised h) h1, Over.mono (fun _ h => comprised h) h2, h3⟩
  assign c hc a ha := by
    obtain ⟨h1, h2⟩ := (TEx.world false (.inl rfl)).assign c hc a ha
    exact ⟨Over.mono (fun _ h => comprised h) h1, h2⟩
  taq f b fr cs h := by
    obtain ⟨h1, h2⟩ := (TEx.world false (.inl rfl)).taq f b fr cs h
    exact ⟨fun c hc => Over.mono (fun _ h => comprised h) (h1 c hc), h2⟩

theorem infoEv : InfoEv K info ta gr where
  dflt := (TEx.infoOK false).dflt
  args f ss hd hs s hm := by
    simp only [info, decide_eq_true_eq, List.mem_cons, List.not_mem_nil, or_false] at hd
    rcases hd with rfl | rfl | rfl | rfl | rfl | rfl | rfl <;> cases hs <;> simp at hm <;> simp_all [info]
  macros f hf h1 h2 := by
    cases f <;> first
      | (cases h1; done)
      | (simp [info] at h2; done)
      | (simp [functions] at hf; done)
      | exact ⟨nofun, nofun⟩
  cast := ⟨rfl, rfl, rfl⟩
  message := rfl

/-! ### Unfolding ends -/

abbrev Fin (x : Clo V (Tm V)) : Prop := Acc (fun b a => Inside (lang (kind false)) [stp false] M ArgOf (fun _ => True) a b) x

theorem fin_app {f : V} (hk : kind false f = .plain ∨ f = .s) {args : List (Fm V)} {σ : Valn (Tm V)} (h : ∀ a ∈ args, Fin (a, σ)) :
    Fin (.app f args, σ) := by
  have hk' : kind false f = .plain ∨ kind false f = .step (stp false) := hk.imp id (fun h => by rw [h]; rfl)
  have key : ∀ k, (lang (kind false)).kind f = k → k = .plain ∨ k = .step (stp false) := by rintro _ rfl; exact hk'
  refine ⟨_, fun y hy => ?_⟩
  rcases hy with (hy | hy) | ⟨r, T, _, hc, _⟩
  · cases hy with
    | part hp => cases hp with | mk ha => exact h _ ha
    | taq hh _ _ _ => rcases key _ hh with h | h <;> cases h
  · cases hy with
    | msg hh => rcases key _ hh with h | h <;> cases h
    | cond hh => rcases key _ hh with h | h <;> cases h
  · cases hc with
    | input hh => rcases key _ hh with h | h <;> cases h
    | exec hh => rcases key _ hh with h | h <;> cases h
    | cell hh => rcases key _ hh with h | h <;> cases h

theorem fin_var (v : Var) (σ : Valn (Tm V)) : Fin (.var v, σ) := by
  refine ⟨_, fun y hy => ?_⟩
  rcases hy with (hy | hy) | ⟨r, T, _, hc, _⟩
  · cases hy with
    | part hp => cases hp
  · cases hy
  · cases hc

theorem fin_k (v : Var) (σ : Valn (Tm V)) : Fin (kF v, σ) :=
  fin_app (.inl rfl) (List.forall_mem_singleton.2 (fin_app (.inl rfl) (List.forall_mem_singleton.2 (fin_var v σ))))

theorem fin_inp {σ : Valn (Tm V)} (h : ∀ σ', ord (.node .s [σ' 0]) (.node .s [σ 0]) →
    Fin ((stp false).message, σ') ∧ Fin ((stp false).condition, σ')) : Fin (inp x0, σ) := by
  refine ⟨_, fun y hy => ?_⟩
  rcases hy with (hy | hy) | ⟨r, T, _, hc, hy⟩
  · cases hy with
    | part hp =>
      cases hp with
      | mk ha =>
        rw [List.mem_singleton] at ha; subst ha
        exact fin_app (.inr rfl) (List.forall_mem_singleton.2 (fin_var _ _))
    | taq hh => cases hh
  · cases hy with
    | msg hh => cases hh
    | cond hh => cases hh
  · cases hc with
    | input hh ho =>
      cases ho
      cases hy with
      | inputMsg hs hd ht =>
        rw [List.mem_singleton] at hs; subst hs
        exact (h _ ht).1
      | inputCond hs hd ht =>
        rw [List.mem_singleton] at hs; subst hs
        exact (h _ ht).2
    | exec hh => cases hh
    | cell hh => cases hh

theorem fin_step {σ : Valn (Tm V)} (h : Fin (inp x0, σ)) : Fin ((stp false).message, σ) ∧ Fin ((stp false).condition, σ) :=
  ⟨fin_app (.inl rfl) (List.forall_mem_cons.2 ⟨h, List.forall_mem_singleton.2 (fin_k _ _)⟩),
    fin_app (.inl rfl) (List.forall_mem_cons.2 ⟨h, List.forall_mem_cons.2 ⟨fin_app (.inl rfl) (fun _ h => nomatch h),
      List.forall_mem_singleton.2 (fin_k _ _)⟩⟩)⟩

theorem fin_at (j : Nat) : ∀ σ : Valn (Tm V), σ 0 = .atom j → Fin (inp x0, σ) := by
  induction j using Nat.strongRecOn with
  | ind j ih =>
  intro σ hσ
  refine fin_inp fun σ' ho => ?_
  obtain ⟨i, j', l, l', h1, h2, hlt⟩ := ho
  simp only [Tm.node.injEq, List.cons.injEq, true_and] at h1 h2
  rw [hσ] at h2
  cases h2.1
  exact fin_step (ih i hlt σ' h1.1)

theorem fin_all (σ : Valn (Tm V)) : Fin (inp x0, σ) := by
  refine fin_inp fun σ' ho => ?_
  obtain ⟨i, j', l, l', h1, _⟩ := ho
  simp only [Tm.node.injEq, List.cons.injEq, true_and] at h1
  exact fin_step (fin_at i σ' h1.1)

theorem ends : Ends K M := by
  intro f l y h
  have hst : ∀ s ∈ K.steps, ∀ σ, Fin (s.message, σ) ∧ Fin (s.condition, σ) :=
    List.forall_mem_singleton.2 fun σ => fin_step (fin_all σ)
  have hy : ∀ r T y, (∀ c, r = .cell c → c = cel false) → Yields (lang (kind false)) [stp false] M r T y → Fin y := by
    intro r T y hc h
    cases h with
    | inputMsg hs => exact (hst _ hs _).1
    | inputCond hs => exact (hst _ hs _).2
    | exec hs => exact (hst _ hs _).2
    | cell ha =>
      obtain rfl := hc _ rfl
      have : ∀ a ∈ (cel false).assigns, ∀ σ, Fin (a.content, σ) := List.forall_mem_singleton.2 fin_all
      exact this _ ha _
  cases h with
  | taq hk hc hf hb =>
    obtain rfl := kind_taq hk
    simp only [kind, Bool.false_eq_true, if_false, Kind.taq.injEq] at hk
    obtain ⟨rfl, rfl, rfl⟩ := hk
    rw [List.mem_singleton] at hc; subst hc
    exact fin_app (.inl rfl) (List.forall_mem_cons.2 ⟨fin_app (.inl rfl) (fun _ h => nomatch h), List.forall_mem_cons.2
      ⟨fin_app (.inl rfl) (fun _ h => nomatch h), List.forall_mem_singleton.2 (fin_k _ _)⟩⟩)
  | msg _ hs _ => exact (hst _ hs _).1
  | cond _ hs _ => exact (hst _ hs _).2
  | input _ _ h => exact hy _ _ _ (fun _ e => by cases e) h
  | exec _ _ h => exact hy _ _ _ (fun _ e => by cases e) h
  | cell hk _ h => exact hy _ _ _ (fun c e => by cases e; exact kind_cell hk) h

/-! ### Nonces cannot be guessed -/

/-- The name `n` is in the tree `d`. -/
inductive InT (n : Tm V) : Tm V → Prop
  | here : InT n n
  | arg {f l a} (hf : ta f) (ha : a ∈ l) (h : InT n a) : InT n (.node f l)

theorem not_inT {l' : List (Tm V)} {d : Tm V} (h : Avoids K M ta gr (.node .k l') d) : ¬ InT (.node .k l') d := by
  have hnode : ∀ {f : V} {l : List (Tm V)}, f ≠ .k → (∀ a ∈ l, ¬ InT (.node .k l') a) → ¬ InT (.node .k l') (.node f l) := by
    intro f l hf hl hi
    cases hi with
    | here => exact hf rfl
    | arg _ ha h => exact hl _ ha h
  have hleaf : ∀ {f : V} {l : List (Tm V)}, ¬ ta f → .node f l ≠ Tm.node .k l' → ¬ InT (.node .k l') (.node f l) := by
    intro f l hf hne hi
    cases hi with
    | here => exact hne rfl
    | arg h _ _ => exact hf h
  induction h with
  | @base s d hs h =>
    have : (∃ i, d = .atom i) ∨ ∃ l, d = .node .s l := by
      rcases hs with rfl | rfl
      · rcases h with h | ⟨g, l, h, _⟩
        · exact .inl h
        · cases g <;> cases h
      · rcases h with h | ⟨g, l, h, rfl⟩
        · exact .inr h
        · cases g <;> cases h
          exact .inr ⟨l, rfl⟩
    rcases this with ⟨i, rfl⟩ | ⟨l, rfl⟩
    · intro hi; cases hi
    · exact hleaf nofun nofun
  | @name d h hne =>
    have : ∃ l, d = .node .k l := by
      rcases h with h | ⟨g, l, h, rfl⟩
      · exact h
      · cases g <;> cases h
        exact ⟨l, rfl⟩
    obtain ⟨l, rfl⟩ := this
    exact hleaf nofun hne
  | @app f l hf hk _ ih =>
    by_cases hg : f = .g
    · subst hg
      match l with
      | [] => exact hnode nofun ih
      | [a] => exact ih a (List.mem_singleton_self _)
      | _ :: _ :: _ => exact hnode nofun ih
    · rw [fn_node _ (ta_S _ hf) hg]
      exact hnode (by rintro rfl; cases hf) ih
  | @opened f l hk hs _ _ ih _ =>
    rw [fn_node _ (kind_S false _ hk) (by rintro rfl; exact hk rfl)]
    exact hnode (by rintro rfl; exact hk rfl) ih

theorem unguessable : Unguessable K M ta gr := by
  rintro n m ⟨l, rfl⟩ he ha
  have he : Tm.node .cast [.node .k l] = m := he
  subst he
  exact not_inT ha (.arg rfl (List.mem_singleton_self _) .here)

/-- `C46_nonce_evaluated_partial` is not vacuous: in this structure symbols are not free, messages are bitstrings, and
all axioms about nonces but that of `exec` are true. -/
example : (∃ a, M.fn .g [a] = a) ∧ M.dom .message = M.dom .bitstring ∧
    ∃ axs ground, K.nonce info false sym = some (axs, ground) ∧ axs.length ≥ 15 ∧
    (∀ φ ∈ axs, (∀ ρ, M.truth (Fm.eval M ρ φ)) ∨ K.specialAx info (nonceSub sym) .all true .exec = some φ) ∧
    ∀ ρ, M.truth (Fm.eval M ρ ground) := by
  refine ⟨⟨.atom 0, rfl⟩, rfl, ?_⟩
  have h : (K.nonce info false sym).map (fun p => decide (p.1.length ≥ 15)) = some true := by decide +kernel
  obtain ⟨⟨axs, ground⟩, h1, h2⟩ := Option.map_eq_some_iff.1 h
  have H := fun ρ => C46_nonce_evaluated_partial setting bodies ends reads infoEv unguessable h1 ρ
  refine ⟨axs, ground, h1, by simpa using h2, fun φ hφ => ?_, fun ρ => (H ρ).2⟩
  by_cases hx : K.specialAx info (nonceSub sym) .all true .exec = some φ
  · exact .inr hx
  · refine .inl fun ρ => ?_
    rcases (H ρ).1 φ hφ with h | ⟨f, hf, hd, hn, h⟩
    · exact h
    · exact absurd (specials (Sb := nonceSub sym) (by decide +kernel) f hf hd (by rintro rfl; exact hx h)) hn

end VEx
end Cry
end CV
