import Verif.SmtCongr
import Verif.Generate
import Verif.GenerateDecls
import Verif.EvaluateProps
set_option linter.unusedSimpArgs false
set_option linter.unusedVariables false
set_option linter.unnecessarySeqFocus false
set_option linter.unusedSectionVars false
/-
C92: the symbols of the file that is written. For a set of symbols that contains those of the problem and is closed under what the generators make of
them, all the symbols of the file are in it.
-/
namespace CV
namespace Gsy
open Dep SmtM Ev Cry
variable {F : Type} {S : F → Prop}

/-- All symbols of the formula are in the set. -/
def Ok (S : F → Prop) (t : Fm F) : Prop := ∀ f ∈ fmSyms t, S f

theorem mem_fmsSyms {l : List (Fm F)} {f : F} : f ∈ fmsSyms l ↔ ∃ a ∈ l, f ∈ fmSyms a := by
  induction l with
  | nil => simp [fmsSyms]
  | cons a l ih => simp [fmsSyms, ih]

@[simp] theorem ok_var (v : Var) : Ok S (.var v) := by intro f hf; simp [fmSyms] at hf
@[simp] theorem ok_app {f : F} {args : List (Fm F)} : Ok S (.app f args) ↔ S f ∧ ∀ a ∈ args, Ok S a := by
  simp only [Ok, fmSyms, List.mem_cons, mem_fmsSyms]
  constructor
  · exact fun h => ⟨h f (.inl rfl), fun a ha g hg => h g (.inr ⟨a, ha, hg⟩)⟩
  · rintro ⟨h1, h2⟩ g (rfl | ⟨a, ha, hg⟩)
    · exact h1
    · exact h2 a ha g hg
@[simp] theorem ok_quant {q : QKind} {vs : List Var} {b : Fm F} : Ok S (.quant q vs b) ↔ Ok S b := Iff.rfl
@[simp] theorem ok_forall {vs : List Var} {b : Fm F} : Ok S (.mkForall vs b) ↔ Ok S b := by
  unfold Fm.mkForall; split <;> simp
@[simp] theorem ok_exists {vs : List Var} {b : Fm F} : Ok S (.mkExists vs b) ↔ Ok S b := by
  unfold Fm.mkExists; split <;> simp

/-! ### Substitution -/

mutual
theorem ok_apply {s : Subst F} (hs : ∀ v, Ok S (s v)) : ∀ {t : Fm F}, Ok S t → Ok S (Subst.apply s t)
  | .var v, _ => hs v
  | .app f args, h => by
    rw [ok_app] at h
    rw [Subst.apply, ok_app]
    exact ⟨h.1, ok_applys hs h.2⟩
  | .quant q vs b, h => ok_apply hs (t := b) h
theorem ok_applys {s : Subst F} (hs : ∀ v, Ok S (s v)) : ∀ {l : List (Fm F)}, (∀ a ∈ l, Ok S a) → ∀ a ∈ Subst.applys s l, Ok S a
  | [], _ => by simp [Subst.applys]
  | t :: l, h => by
    intro a ha
    rcases List.mem_cons.1 ha with rfl | ha
    · exact ok_apply hs (h t List.mem_cons_self)
    · exact ok_applys hs (fun a ha => h a (List.mem_cons_of_mem _ ha)) a ha
end

theorem ok_translate {n : Nat} {t : Fm F} (h : Ok S t) : Ok S (t.translateVars n) := ok_apply (fun v => ok_var _) h

theorem ok_ren {r : List (Nat × Var)} {t : Fm F} (h : Ok S t) : Ok S (Subst.apply (renSubst r) t) := ok_apply (fun v => ok_var _) h

def MOk (S : F → Prop) (s : MSubst F) : Prop := ∀ p ∈ s, Ok S p.2

theorem maybeGet_ok {s : MSubst F} (h : MOk S s) {i : Nat} {t : Fm F} (e : s.maybeGet i = some t) : Ok S t := by
  unfold MSubst.maybeGet at e
  obtain ⟨p, hp, rfl⟩ := Option.map_eq_some_iff.1 e
  exact h p (List.mem_of_find?_eq_some hp)

theorem get_ok {s : MSubst F} (h : MOk S s) (v : Var) : Ok S (s.get v) := by
  unfold MSubst.get
  cases e : s.maybeGet v.id with
  | none => simp
  | some t => exact maybeGet_ok h e

theorem add_ok {s : MSubst F} (h : MOk S s) {i : Nat} {t : Fm F} (ht : Ok S t) : MOk S (s.add i t) := by
  intro p hp
  rcases List.mem_append.1 hp with hp | hp
  · exact h p hp
  · rw [List.mem_singleton.1 hp]; exact ht

theorem zipEq_ok : ∀ {vs : List Nat} {fs : List (Fm F)} {s : MSubst F}, FrozenSubst.zipEq vs fs = some s → (∀ a ∈ fs, Ok S a) → MOk S s
  | [], [], s, h, _ => by cases h; intro p hp; cases hp
  | [], _ :: _, _, h, _ => by cases h
  | _ :: _, [], _, h, _ => by cases h
  | v :: vs, f :: fs, s, h, hf => by
    obtain ⟨s', h', rfl⟩ := Option.map_eq_some_iff.1 h
    intro p hp
    rcases List.mem_cons.1 hp with rfl | hp
    · exact hf f List.mem_cons_self
    · exact zipEq_ok h' (fun a ha => hf a (List.mem_cons_of_mem _ ha)) p hp

theorem zip_ok {vs : List Nat} {fs : List (Fm F)} (hf : ∀ a ∈ fs, Ok S a) : MOk S (vs.zip fs) :=
  fun p hp => hf _ (List.of_mem_zip hp).2

section
variable [DecidableEq F]

/-! ### Unification -/

theorem mguAll_ok {k : Fm F → Fm F → MSubst F → MSubst F → URes F}
    (hk : ∀ a b lp rp r, k a b lp rp = some r → Ok S a → Ok S b → MOk S lp → MOk S rp → MOk S r.2.1 ∧ MOk S r.2.2) :
    ∀ (as bs : List (Fm F)) lp rp r, mguAll k as bs lp rp = some r → (∀ a ∈ as, Ok S a) → (∀ b ∈ bs, Ok S b) → MOk S lp → MOk S rp →
      MOk S r.2.1 ∧ MOk S r.2.2
  | a :: as, b :: bs, lp, rp, r, h, ha, hb, hl, hr => by
    simp only [mguAll] at h
    have k0 := hk a b lp rp
    split at h
    · next lp' rp' e =>
      have := k0 _ e (ha a List.mem_cons_self) (hb b List.mem_cons_self) hl hr
      exact mguAll_ok hk as bs lp' rp' r h (fun x hx => ha x (List.mem_cons_of_mem _ hx)) (fun x hx => hb x (List.mem_cons_of_mem _ hx)) this.1 this.2
    · exact k0 _ h (ha a List.mem_cons_self) (hb b List.mem_cons_self) hl hr
  | [], _, lp, rp, r, h, _, _, hl, hr => by simp only [mguAll] at h; cases h; exact ⟨hl, hr⟩
  | _ :: _, [], lp, rp, r, h, _, _, hl, hr => by simp only [mguAll] at h; cases h; exact ⟨hl, hr⟩

theorem mguAux_ok : ∀ (n : Nat) (l r : Fm F) lp rp res, mguAux n l r lp rp = some res → Ok S l → Ok S r → MOk S lp → MOk S rp →
    MOk S res.2.1 ∧ MOk S res.2.2
  | 0, _, _, _, _, _, h, _, _, _, _ => by simp [mguAux] at h
  | n + 1, l, r, lp, rp, res, h, hl, hr, hlp, hrp => by
    cases l with
    | var v =>
      simp only [mguAux] at h
      split at h
      · cases h; exact ⟨hlp, hrp⟩
      · split at h
        · next e =>
          split at h
          · split at h
            · cases h; exact ⟨hlp, hrp⟩
            · split at h
              · cases h; exact ⟨hlp, hrp⟩
              · cases h; exact ⟨hlp, add_ok hrp (ok_var _)⟩
          · cases h; exact ⟨hlp, hrp⟩
        · next nl _ e => exact mguAux_ok n nl r lp rp res h (maybeGet_ok hlp e) hr hlp hrp
        · cases h; exact ⟨add_ok hlp hr, hrp⟩
    | app f as =>
      cases r with
      | var v =>
        simp only [mguAux] at h
        split at h
        · cases h; exact ⟨hlp, hrp⟩
        · next nl _ e => exact mguAux_ok n nl _ lp rp res h (maybeGet_ok hrp e) (ok_var _) hlp hrp
        · cases h; exact ⟨hlp, add_ok hrp hl⟩
      | app g bs =>
        simp only [mguAux] at h
        split at h
        · exact mguAll_ok (mguAux_ok n) as bs lp rp res h (ok_app.1 hl).2 (ok_app.1 hr).2 hlp hrp
        · cases h; exact ⟨hlp, hrp⟩
      | quant q vs b => simp only [mguAux] at h; cases h; exact ⟨hlp, hrp⟩
    | quant q vs b =>
      cases r with
      | var v =>
        simp only [mguAux] at h
        split at h
        · cases h; exact ⟨hlp, hrp⟩
        · next nl _ e => exact mguAux_ok n nl _ lp rp res h (maybeGet_ok hrp e) (ok_var _) hlp hrp
        · cases h; exact ⟨hlp, add_ok hrp hl⟩
      | app g bs => simp only [mguAux] at h; cases h; exact ⟨hlp, hrp⟩
      | quant q vs b => simp only [mguAux] at h; cases h; exact ⟨hlp, hrp⟩

theorem mgu_ok {n : Nat} {l r : Fm F} {u : Unif F} (h : mgu n l r = some (some u)) (hl : Ok S l) (hr : Ok S r) : MOk S u.left ∧ MOk S u.right := by
  obtain ⟨x, hx, e⟩ := Option.map_eq_some_iff.1 h
  split at e
  · cases e
    exact mguAux_ok n l r [] [] x hx hl hr (fun p hp => by cases hp) fun p hp => by cases hp
  · cases e

theorem equalities_ok {u : Unif F} {l : List (Nat × Fm F)} (h : u.asEqualities = some l) (hu : MOk S u.left ∧ MOk S u.right) : MOk S l := by
  unfold Unif.asEqualities at h
  split at h
  · cases h
  · cases h
    intro p hp
    rcases List.mem_append.1 hp with hp | hp
    · exact hu.1 p hp
    · exact hu.2 p hp

end

/-! ### The symbols of the language -/

/-- The symbols formulas are built with. -/
structure LOk (S : F → Prop) (L : Lang F) : Prop where
  eq : S L.eq
  and : S L.and
  or : S L.or
  imp : S L.imp
  tru : S L.tru
  lt : S L.lt
  kind : ∀ f, S f → ∀ b fr cs, L.kind f = .taq b fr cs → ∀ c ∈ cs, Ok S c

section
variable {L : Lang F} (hL : LOk S L)
include hL

theorem ok_meq {a b : Fm F} : Ok S (L.meq a b) ↔ Ok S a ∧ Ok S b := by simp [Lang.meq, hL.eq]
theorem ok_ands {l : List (Fm F)} : Ok S (L.ands l) ↔ ∀ a ∈ l, Ok S a := by simp [Lang.ands, hL.and]
theorem ok_ors {l : List (Fm F)} : Ok S (L.ors l) ↔ ∀ a ∈ l, Ok S a := by simp [Lang.ors, hL.or]
theorem ok_strict {a b : Fm F} : Ok S (L.strictBefore a b) ↔ Ok S a ∧ Ok S b := by simp [Lang.strictBefore, hL.lt]
theorem ok_before {a b : Fm F} : Ok S (L.before a b) ↔ Ok S a ∧ Ok S b := by simp [Lang.before, ok_ors hL, ok_strict hL, ok_meq hL]

theorem mapM_ok {α β : Type} {f : α → Option β} {Q : β → Prop} {l : List α} (hf : ∀ a ∈ l, ∀ b, f a = some b → Q b) {r : List β} (h : l.mapM f = some r) :
    ∀ b ∈ r, Q b := by
  induction l generalizing r with
  | nil => simp at h; subst h; intro b hb; cases hb
  | cons a l ih =>
    simp only [List.mapM_cons, Option.bind_eq_bind, Option.pure_def, Option.bind_eq_some_iff, Option.some.injEq] at h
    obtain ⟨x, hx, xs, hxs, rfl⟩ := h
    intro b hb
    rcases List.mem_cons.1 hb with rfl | hb
    · exact hf a List.mem_cons_self _ hx
    · exact ih (fun a ha => hf a (List.mem_cons_of_mem _ ha)) hxs b hb

theorem eqFormulas_ok {l : List (Nat × Fm F)} {r : List (Fm F)} (h : eqFormulas L l = some r) (hl : MOk S l) : ∀ a ∈ r, Ok S a := by
  unfold eqFormulas at h
  refine mapM_ok hL (Q := Ok S) (fun p hp b hb => ?_) h
  obtain ⟨s, _, rfl⟩ := Option.map_eq_some_iff.1 hb
  exact (ok_meq hL).2 ⟨ok_var _, hl p hp⟩

/-! ### Search -/

def GOk (S : F → Prop) (st : UState F) : Prop := ∀ g, st.guard = some g → Ok S g

theorem addVars_ok {st st' : UState F} {vs : List Var} (h : st.addVariables vs = some st') (hg : GOk S st) : GOk S st' := by
  unfold UState.addVariables at h
  split at h
  · cases h; exact hg
  · cases h

theorem addCond_ok {st st' : UState F} {vs : List Var} {c : Fm F} (h : st.addCondition L vs c = some st') (hg : GOk S st) (hc : Ok S c) : GOk S st' := by
  obtain ⟨n, hn, rfl⟩ := Option.map_eq_some_iff.1 h
  have := addVars_ok hL hn hg
  intro g e
  simp only [Option.some.injEq] at e
  split at e
  · next g' e' =>
    rw [← e, ok_ands hL]
    intro a ha
    simp only [List.mem_cons, List.not_mem_nil, or_false] at ha
    rcases ha with rfl | rfl
    · exact this _ e'
    · exact hc
  · rw [← e]; exact hc

/-- The steps. -/
def SOk (S : F → Prop) (steps : List (GStep F)) : Prop := ∀ s ∈ steps, S s.fn ∧ Ok S s.condition ∧ Ok S s.message
/-- The cells that are followed. -/
def POk (S : F → Prop) (G : PreGraph F) : Prop := ∀ r anc, G.ancestors r = some anc → ∀ c ∈ anc.cells, ∀ a ∈ c.assigns, S a.step.fn ∧ Ok S a.content

variable {steps : List (GStep F)} (hst : SOk S steps) {G : PreGraph F} (hG : POk S G)

theorem ok_vars (f : Var → Fm F) (hf : ∀ v, Ok S (f v)) (vs : List Var) : ∀ a ∈ vs.map f, Ok S a := by
  intro a ha
  obtain ⟨v, _, rfl⟩ := List.mem_map.1 ha
  exact hf v

include hst in
theorem unfoldStepMacro_ok {msg : Bool} {args : List (Fm F)} {st : UState F} {l : List (Fm F × UState F)} (h : unfoldStepMacro L steps msg args st = some l)
    (ha : ∀ a ∈ args, Ok S a) (hg : GOk S st) : ∀ p ∈ l, Ok S p.1 ∧ GOk S p.2 := by
  unfold unfoldStepMacro at h
  split at h
  · next arg =>
    refine mapM_ok hL (Q := fun p => Ok S p.1 ∧ GOk S p.2) (fun s hs p hp => ?_) h
    obtain ⟨st', h1, rfl⟩ := Option.map_eq_some_iff.1 hp
    obtain ⟨k1, k2, k3⟩ := hst s hs
    refine ⟨?_, addCond_ok hL h1 hg ?_⟩
    · dsimp only; split
      · exact k3
      · exact k2
    · rw [ok_meq hL, ok_app]
      exact ⟨ha _ List.mem_cons_self, k1, ok_vars hL _ (fun v => ok_var v) _⟩
  · cases h

theorem unfoldAssign_ok {i : Bool} {o : Fm F} {st : UState F} {a : GAssign F} {p : Fm F × UState F} (h : unfoldAssign L i o st a = some p)
    (ho : Ok S o) (hg : GOk S st) (ha : S a.step.fn ∧ Ok S a.content) : Ok S p.1 ∧ GOk S p.2 := by
  obtain ⟨st', h1, rfl⟩ := Option.map_eq_some_iff.1 h
  refine ⟨ok_ren ha.2, addCond_ok hL h1 hg ?_⟩
  have hs : Ok S (.app a.step.fn (a.step.vars.map (renSubst (F := F) (collisionAvoiding (a.step.vars ++ a.fresh) st.bound)))) :=
    ok_app.2 ⟨ha.1, ok_vars hL _ (fun v => ok_var _) _⟩
  split
  · exact (ok_strict hL).2 ⟨hs, ho⟩
  · exact (ok_before hL).2 ⟨hs, ho⟩

theorem unfoldStep_ok {o : Fm F} {st : UState F} {s : GStep F} {l : List (Fm F × UState F)} (h : unfoldStep L o st s = some l)
    (ho : Ok S o) (hg : GOk S st) (hs : S s.fn ∧ Ok S s.condition ∧ Ok S s.message) : ∀ p ∈ l, Ok S p.1 ∧ GOk S p.2 := by
  obtain ⟨st', h1, rfl⟩ := Option.map_eq_some_iff.1 h
  have hk := addCond_ok hL h1 hg ((ok_strict hL).2 ⟨ok_app.2 ⟨hs.1, ok_vars hL _ (fun v => ok_var _) _⟩, ho⟩)
  intro p hp
  simp only [List.mem_cons, List.not_mem_nil, or_false] at hp
  rcases hp with rfl | rfl
  · exact ⟨ok_ren hs.2.2, hk⟩
  · exact ⟨ok_ren hs.2.1, hk⟩

include hst hG

theorem unfoldCell_ok {r : MacroRef F} {args : List (Fm F)} {st : UState F} {l : List (Fm F × UState F)} (h : unfoldCellOrInput L steps G r st args = some l)
    (ha : ∀ a ∈ args, Ok S a) (hg : GOk S st) : ∀ p ∈ l, Ok S p.1 ∧ GOk S p.2 := by
  unfold unfoldCellOrInput at h
  split at h
  · next anc o h1 h2 =>
    have ho : Ok S o := ha o (List.mem_of_getLast? h2)
    split at h
    · next cs is h3 h4 =>
      cases h
      intro p hp
      rcases List.mem_append.1 hp with hp | hp
      · refine mapM_ok hL (Q := fun p => Ok S p.1 ∧ GOk S p.2) (fun a ha p hp => ?_) h3 p hp
        obtain ⟨c, hc, hca⟩ := List.mem_flatMap.1 ha
        exact unfoldAssign_ok hL hp ho hg (hG r anc h1 c hc a hca)
      · obtain ⟨q, hq, hp⟩ := List.mem_flatten.1 hp
        split at h4
        · exact mapM_ok hL (Q := fun l => ∀ p ∈ l, Ok S p.1 ∧ GOk S p.2) (fun s hs q hq => unfoldStep_ok hL hq ho hg (hst s hs)) h4 q hq p hp
        · cases h4; cases hq
    · cases h
  · cases h

theorem unfold_ok {t : Fm F} {st : UState F} {l : List (Fm F × UState F)} (h : unfold L steps G t st = some l) (ht : Ok S t) (hg : GOk S st) :
    ∀ p ∈ l, Ok S p.1 ∧ GOk S p.2 := by
  have hnil : ∀ p ∈ ([] : List (Fm F × UState F)), Ok S p.1 ∧ GOk S p.2 := fun p hp => by cases hp
  cases t with
  | var v => cases h; exact hnil
  | quant q vs b =>
    cases h
    intro p hp
    rw [List.mem_singleton.1 hp]
    exact ⟨ht, hg⟩
  | app f args =>
    have ha := (ok_app.1 ht).2
    simp only [unfold] at h
    split at h
    · next b fr cs hk =>
      split at h
      · unfold unfoldQuantifier at h
        split at h
        · cases h
        · next fs hfs =>
          obtain ⟨st', h1, rfl⟩ := Option.map_eq_some_iff.1 h
          intro p hp
          obtain ⟨c, hc, rfl⟩ := List.mem_map.1 hp
          refine ⟨ok_apply (get_ok (zip_ok ?_)) (ok_ren (hL.kind f (ok_app.1 ht).1 b fr cs hk c hc)), addVars_ok hL h1 hg⟩
          unfold FrozenSubst.newFrom at hfs
          split at hfs
          · cases hfs; exact ha
          · cases hfs
      · cases h; exact hnil
    · split at h
      · exact unfoldCell_ok hL hst hG h ha hg
      · cases h; exact hnil
    · split at h
      · exact unfoldStepMacro_ok hL hst h ha hg
      · cases h; exact hnil
    · split at h
      · exact unfoldStepMacro_ok hL hst h ha hg
      · cases h; exact hnil
    · split at h
      · exact unfoldCell_ok hL hst hG h ha hg
      · cases h; exact hnil
    · split at h
      · exact unfoldCell_ok hL hst hG h ha hg
      · cases h; exact hnil
    · cases h; exact hnil
    · cases h; exact hnil
end

/-- Results of a pile. -/
theorem pile_ok {U P T : Type} {it : FIter U F P T} {Q : Fm F → P → Prop} {R : U → Prop}
    (hv : ∀ s f p, Q f p → ∀ c ∈ (it.visit s f p).2, match c with | .result u => R u | .next g q => Q g q) :
    ∀ (n : Nat) (s : T) (π : List (Content U F P)) r, runPile it n s π = some r →
      (∀ c ∈ π, match c with | .result u => R u | .next g q => Q g q) → ∀ u ∈ r, R u
  | _, _, [], r, h, _ => by
    have : r = [] := by cases ‹Nat› <;> simpa [runPile] using h.symm
    subst this; intro u hu; cases hu
  | 0, _, _ :: _, r, h, _ => by simp [runPile] at h
  | n + 1, s, .result u :: π, r, h, hπ => by
    obtain ⟨r', h', rfl⟩ := Option.map_eq_some_iff.1 h
    intro v hv'
    rcases List.mem_cons.1 hv' with rfl | hv'
    · exact hπ _ List.mem_cons_self
    · exact pile_ok hv n s π r' h' (fun c hc => hπ c (List.mem_cons_of_mem _ hc)) v hv'
  | n + 1, s, .next f p :: π, r, h, hπ => by
    refine pile_ok hv n _ _ r h ?_
    intro c hc
    rcases List.mem_append.1 hc with hc | hc
    · exact hv s f p (hπ _ List.mem_cons_self) c (List.mem_reverse.1 hc)
    · exact hπ c (List.mem_cons_of_mem _ hc)

theorem args_ok {t : Fm F} (h : Ok S t) : ∀ a ∈ t.args, Ok S a := by
  cases t with
  | var => intro a ha; cases ha
  | app f args => exact (ok_app.1 h).2
  | quant => intro a ha; rw [List.mem_singleton.1 ha]; exact h

theorem allTerms_ok {n : Nat} {t : Fm F} {l : List (Fm F)} (h : allTerms n t = some l) (ht : Ok S t) : ∀ a ∈ l, Ok S a := by
  refine pile_ok (it := allTermsIter) (Q := fun f _ => Ok S f) (R := Ok S) ?_ n () _ l h ?_
  · intro s f p hf c hc
    simp only [allTermsIter, List.cons_append, List.nil_append, List.mem_cons, List.mem_map] at hc
    rcases hc with rfl | ⟨a, ha, rfl⟩
    · exact hf
    · exact args_ok hf a ha
  · intro c hc
    rw [List.mem_singleton.1 hc]
    exact ht

section
variable [DecidableEq F]

/-- The ways of descending go to subterms. -/
def AOk (S : F → Prop) (A : Aux F) : Prop := ∀ t, Ok S t → ∀ a ∈ A.nexts t, Ok S a

/-- The predicates. -/
def SubOk (S : F → Prop) (sym : Option Srt → Option F) : Prop := ∀ s f, sym s = some f → S f

theorem macArgs_ok {m : F} {t : Fm F} (h : Ok S t) : ∀ a ∈ macArgs m t, Ok S a := by
  unfold macArgs
  split
  · split
    · exact (ok_app.1 h).2
    · intro a ha; cases ha
  · intro a ha; cases ha

theorem aux_default (s : Srt) : AOk S (Aux.default (F := F) s) := fun t ht => args_ok ht

theorem aux_ufKey (m v c : F) : AOk S (Aux.ufKey m v c) := by
  intro t ht a ha
  cases t with
  | var => cases ha
  | quant => rw [List.mem_singleton.1 ha]; exact ht
  | app f args =>
    simp only [Aux.ufKey] at ha
    split at ha
    · exact (ok_app.1 ht).2 a (List.mem_of_mem_take ha)
    · split at ha
      · exact (ok_app.1 ht).2 a (List.mem_of_mem_take ha)
      · exact (ok_app.1 ht).2 a ha

theorem aux_eufKey (s p c : F) : AOk S (Aux.eufKey s p c) := by
  intro t ht a ha
  cases t with
  | var => cases ha
  | quant => rw [List.mem_singleton.1 ha]; exact ht
  | app f args =>
    simp only [Aux.eufKey] at ha
    split at ha
    · exact (ok_app.1 ht).2 a (List.mem_of_mem_take ha)
    · split at ha
      · cases ha
      · exact (ok_app.1 ht).2 a ha

theorem aux_ctxtKey (e d c : F) : AOk S (Aux.ctxtKey e d c) := by
  intro t ht a ha
  cases t with
  | var => cases ha
  | quant => rw [List.mem_singleton.1 ha]; exact ht
  | app f args =>
    simp only [Aux.ctxtKey] at ha
    split at ha
    · exact (ok_app.1 ht).2 a (List.mem_of_mem_take ha)
    · split at ha
      · exact (ok_app.1 ht).2 a (List.mem_of_mem_take ha)
      · exact (ok_app.1 ht).2 a ha

theorem aux_ctxtRand (e c : F) : AOk S (Aux.ctxtRand e c) := by
  intro t ht a ha
  cases t with
  | var => cases ha
  | quant => rw [List.mem_singleton.1 ha]; exact ht
  | app f args =>
    simp only [Aux.ctxtRand] at ha
    split at ha
    · rcases List.mem_append.1 ha with ha | ha
      · exact (ok_app.1 ht).2 a (List.mem_of_mem_take ha)
      · exact (ok_app.1 ht).2 a (List.mem_of_mem_drop (List.mem_of_mem_take ha))
    · exact (ok_app.1 ht).2 a ha

theorem aux_ufMain (L : Lang F) (e m v : F) (h : Bool) : AOk S (Aux.ufMain L e m v h) := by
  intro t ht a ha
  cases t with
  | var => cases ha
  | quant => rw [List.mem_singleton.1 ha]; exact ht
  | app f args =>
    have hargs := (ok_app.1 ht).2
    simp only [Aux.ufMain] at ha
    split at ha
    · next sig mm kk _ =>
      split at ha
      · simp only [List.cons_append, List.nil_append, List.mem_cons] at ha
        rcases ha with rfl | rfl | ha
        · exact hargs _ (by simp)
        · exact hargs _ (by simp)
        · exact macArgs_ok (hargs sig (by simp)) a ha
      · exact hargs a ha
    · split at ha
      · split at ha
        · next l r _ =>
          split at ha
          · exact hargs a ha
          · rcases List.mem_append.1 ha with ha | ha
            · exact macArgs_ok (hargs l (by simp)) a ha
            · exact macArgs_ok (hargs r (by simp)) a ha
        · exact hargs a ha
      · exact hargs a ha

theorem subFormula_ok {L : Lang F} (hL : LOk S L) {b : Bool} {sym : Option Srt → Option F} (hs : SubOk S sym) {x m r : Fm F}
    (h : subFormula L b sym x m = some r) (hx : Ok S x) (hm : Ok S m) : Ok S r := by
  unfold subFormula at h
  split at h
  · obtain ⟨f, hf, rfl⟩ := Option.map_eq_some_iff.1 h
    rw [ok_app]
    refine ⟨hs _ _ hf, fun a ha => ?_⟩
    simp only [List.mem_cons, List.not_mem_nil, or_false] at ha
    rcases ha with rfl | rfl <;> assumption
  · cases h; simp [hL.tru]

theorem search_ok {C : SearchCfg F} (hL : LOk S C.L) (hst : SOk S C.steps) (hG : POk S C.G) (hA : AOk S C.A) (hs : SubOk S C.sub) {n : Nat} {x : Fm F} {fl : Flags}
    {roots : List (Fm F × List Var)} {res : List (Option (List Var × Fm F))} (h : Dep.search C n x fl roots = some res) (hx : Ok S x)
    (hr : ∀ p ∈ roots, Ok S p.1) : ∀ p, some p ∈ res → Ok S p.2 := by
  have := pile_ok (it := searchIter C x) (Q := fun t st => Ok S t ∧ GOk S st) (R := fun r => ∀ p, r = some p → Ok S p.2) ?_ n () _ res h ?_
  · exact fun p hp => this _ hp p rfl
  · rintro s t st ⟨ht, hg⟩ c hc
    simp only [searchIter, searchVisit, List.mem_append] at hc
    rcases hc with (hc | hc) | hc
    · split at hc
      · rw [List.mem_singleton.1 hc]; intro p e; cases e
      · next l hl =>
        obtain ⟨p, hp, rfl⟩ := List.mem_map.1 hc
        exact unfold_ok hL hst hG hl ht hg p hp
    · obtain ⟨r, hr, rfl⟩ := List.mem_map.1 hc
      show ∀ p, r = some p → Ok S p.2
      unfold visitResult at hr
      split at hr
      · rw [List.mem_singleton.1 hr]; intro p e; cases e
      · cases hr
      · next u hu =>
        have hU : MOk S u.left ∧ MOk S u.right := by
          unfold unifierOf at hu
          split at hu
          · split at hu
            · cases hu
              refine ⟨fun p hp => ?_, fun p hp => by cases hp⟩
              rw [List.mem_singleton.1 hp]; exact ht
            · exact mgu_ok hu hx ht
          · cases hu
        split at hr
        · rw [List.mem_singleton.1 hr]; intro p e; cases e
        · next g hg' =>
          rw [List.mem_singleton.1 hr]
          intro p e
          cases e
          have hgo : ∀ a ∈ g, Ok S a := by
            have heq : ∀ g, (u.asEqualities).bind (eqFormulas C.L) = some g → ∀ a ∈ g, Ok S a := by
              intro g hg
              obtain ⟨l, h1, h2⟩ := Option.bind_eq_some_iff.1 hg
              exact eqFormulas_ok hL h2 (equalities_ok h1 hU)
            unfold unifGuard at hg'
            split at hg'
            · split at hg'
              · obtain ⟨a, ha, rfl⟩ := Option.map_eq_some_iff.1 hg'
                intro b hb
                rw [List.mem_singleton.1 hb]
                exact subFormula_ok hL hs ha hx ht
              · exact heq g hg'
            · exact heq g hg'
          rw [ok_ands hL]
          intro a ha
          rcases List.mem_append.1 ha with ha | ha
          · exact hgo a ha
          · split at ha
            · exact hg a (Option.mem_toList.1 ha)
            · cases ha
    · obtain ⟨a, ha, rfl⟩ := List.mem_map.1 hc
      exact ⟨hA t ht a ha, hg⟩
  · intro c hc
    rw [List.mem_reverse] at hc
    obtain ⟨p, hp, rfl⟩ := List.mem_map.1 hc
    exact ⟨hr p hp, fun g e => by cases e⟩

theorem uniq_sub {α : Type} [DecidableEq α] : ∀ {l : List α} {a : α}, a ∈ uniq l → a ∈ l
  | [], _, h => h
  | b :: l, a, h => by
    rcases List.mem_cons.1 h with rfl | h
    · exact List.mem_cons_self
    · exact List.mem_cons_of_mem _ (uniq_sub (List.mem_filter.1 h).1)

theorem intoExist_ok {L : Lang F} (hL : LOk S L) {l : List (List Var × Fm F)} (h : ∀ p ∈ l, Ok S p.2) : Ok S (intoExist L l) := by
  have h' : ∀ p ∈ uniq l, Ok S p.2 := fun p hp => h p (uniq_sub hp)
  unfold intoExist
  dsimp only
  split
  · rw [ok_ors hL]
    intro a ha
    obtain ⟨p, hp, rfl⟩ := List.mem_map.1 ha
    exact h' p hp
  · rw [ok_ors hL]
    intro a ha
    rcases List.mem_cons.1 ha with rfl | ha
    · rw [ok_exists, ok_ors hL]
      intro b hb
      obtain ⟨i, _, hb⟩ := List.mem_filterMap.1 hb
      obtain ⟨p, hp, rfl⟩ := Option.map_eq_some_iff.1 hb
      rw [ok_exists]
      exact h' p (List.mem_of_getElem? hp)
    · obtain ⟨p, hp, rfl⟩ := List.mem_map.1 ha
      rw [ok_exists]
      exact h' p.1 (List.fst_mem_of_mem_zipIdx (List.mem_filter.1 hp).1)

end
end Gsy
end CV
