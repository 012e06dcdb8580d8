import Verif.SubtermDef
import Verif.SubtermEx
set_option linter.unusedSimpArgs false
set_option linter.unnecessarySeqFocus false
/-
The hypotheses of C65 and C66 are met.
-/
namespace CV
namespace Dep
namespace SEx
open Fm ExEx

/-- C66 is not vacuous: the result that holds (`foundA`) comes from a value reached from the content of the cell. -/
example : ∃ res vs φ, search cfgA 100 patA .all rootsA = some res ∧ some (vs, φ) ∈ res ∧
    quantVal MA .ex vs (fun τ => MA.truth (eval MA τ φ)) ρA ∧
    ∃ r bv τ, (r, bv) ∈ rootsA ∧ InDom MA bv τ ∧ (∀ i, 10 ≤ i → τ i = ρA i) ∧ ∃ t, cfgA.A.unified LA t = true ∧
      Reaches LA [stepS] [cellC] MA AnyPart true (eval MA τ r) (eval MA τ t) ∧
      (eval MA τ t = eval MA ρA patA ∨
        (∃ w, t = .var w) ∧ (∀ w, patA ≠ .var w) ∧ ∃ p, subFormula LA true (fun _ => some .sub) patA t = some p ∧ MA.truth (eval MA τ p)) := by
  obtain ⟨res, h1, vs, φ, h2, h3⟩ := foundA
  refine ⟨res, vs, φ, h1, h2, h3, ?_⟩
  have hsh : Shrinks cfgA.A := ufMain_shrinks _ _ _ _ _
  have hsub := AncSpec.cells_sub (builtA.spec goodA)
  have hr : ∀ t bv, (t, bv) ∈ rootsA → NoQuant t ∧ VarsIn (fun i => 10 ≤ i) bv t ∧ (bv.map Var.id).Nodup := by
    intro t bv ht
    simp only [rootsA, List.mem_singleton, Prod.mk.injEq] at ht
    obtain ⟨rfl, rfl⟩ := ht
    refine ⟨.app ?_, ?_, by simp⟩
    · intro a ha; simp only [List.mem_singleton] at ha; subst ha
      exact .app (by intro a ha; simp only [List.mem_singleton] at ha; subst ha; exact .var _)
    · intro v hv
      simp only [tp, Fm.vars, Fm.varss, List.append_nil, List.mem_singleton] at hv
      subst hv; exact .inr (Nat.le_refl _)
  have hcl : NoClash cfgA .all rootsA (fun i => 10 ≤ i) := by
    refine ⟨?_, ?_⟩
    · intro t st he v hv
      have : ∀ p ∈ elemsA, ∀ v ∈ p.2.bound, v.id < 10 := by decide +kernel
      have := this _ (elem_of_closed (closedA _) he) v hv
      omega
    · intro f args st he hk
      have : ∀ p ∈ elemsA, (match p.1 with | .app f _ => decide (f ≠ .msg ∧ f ≠ .cond) | _ => true) = true := by decide +kernel
      have := this _ (elem_of_closed (closedA _) he)
      simp only [decide_eq_true_eq] at this
      cases f <;> simp [cfg, LA, lang, kindA] at hk this
  exact C66_reported_partial (C := cfgA) (cells := [cellC]) (outer := fun i => 10 ≤ i) (vp := AnyPart)
    (freeStr_sem ord rel (lang_distinct _)) protA hsh
    (fun t st a he ha τ => (ufMain_digs _ _ _ _ _).within (C := cfgA) (inv_elem protA hsh hsub hr hcl he).noQuant ha τ) hsub hr hcl
    (by
      intro v hv
      simp only [patA, mk, nk, Fm.vars, Fm.varss, List.append_nil, List.mem_singleton] at hv
      subst hv; simp) h1 h2 h3

/-- The key as a message. -/
def rootsM : List (Fm Y × List Var) := [(.app .mac [mk, mk], [])]
def elemsM : List (Fm Y × UState Y) := visitAll cfgK 6 (rootsM.map (fun p => (p.1, ⟨.noRecMacro, p.2, none⟩)))
theorem closedM : closedB cfgK .noRecMacro rootsM elemsM = true := by decide +kernel

/-- The keys of a term written as casts, computed. -/
def writtenB : Fm Y → Bool
  | .app f args => (decide (f ≠ .mac) || (args[1]?).any (isApp .cast)) && (decide (f ≠ .verify) || (args[2]?).any (isApp .cast))
  | _ => true

theorem written {t : Fm Y} (h : writtenB t = true) : KeysWritten .mac .verify .cast t := by
  have key : ∀ {n : Nat} {args : List (Fm Y)}, (args[n]?).any (isApp .cast) = true → ∃ as, args[n]? = some (.app .cast as) := by
    intro n args h
    cases ha : args[n]? with
    | none => rw [ha] at h; cases h
    | some a =>
      rw [ha] at h
      cases a with
      | var v => cases h
      | app g' as => simp only [Option.any_some, isApp, decide_eq_true_eq] at h; subst h; exact ⟨as, rfl⟩
      | quant q vs b => cases h
  constructor
  · rintro args rfl
    simp [writtenB] at h
    exact key (by simpa using h)
  · rintro args rfl
    simp [writtenB] at h
    exact key (by simpa using h)

/-- C25 is not vacuous: the key used as a message is reported, and reached otherwise than as the key of the MAC. -/
example (ρ : Valn (Tm Y)) : search cfgK 100 nk .noRecMacro rootsM = some [some ([], LA.ands [])] ∧
    ∃ r bv τ, (r, bv) ∈ rootsM ∧ InDom MA bv τ ∧ (∀ i, True → τ i = ρ i) ∧ ∃ t, cfgK.A.unified LA t = true ∧
      Reaches LA [stepS] [cellC] MA (NotKey .mac .verify) false (eval MA τ r) (eval MA τ t) ∧
      (eval MA τ t = eval MA ρ nk ∨
        (∃ w, t = .var w) ∧ (∀ w, nk ≠ .var w) ∧ ∃ p, subFormula LA true (fun _ => some .sub) nk t = some p ∧ MA.truth (eval MA τ p)) := by
  have hs : search cfgK 100 nk .noRecMacro rootsM = some [some ([], LA.ands [])] := by decide +kernel
  refine ⟨hs, ?_⟩
  have hsub := AncSpec.cells_sub (builtA.spec goodA)
  refine C25_reported_partial (C := cfgK) (cells := [cellC]) (outer := fun _ => True)
    (freeStr_sem ord rel (lang_distinct _)) protA (by decide) rfl ?_ hsub ?_ ⟨?_, ?_⟩ (fun _ _ => trivial) hs (List.mem_singleton_self _) ?_
  · intro t st he
    have : ∀ p ∈ elemsM, writtenB p.1 = true := by decide +kernel
    exact written (this _ (elem_of_closed closedM he))
  · intro t bv ht
    simp only [rootsM, List.mem_singleton, Prod.mk.injEq] at ht
    obtain ⟨rfl, rfl⟩ := ht
    have hk : NoQuant mk := .app (by
      intro a ha; simp only [List.mem_singleton] at ha; subst ha; exact .app (by intro a ha; cases ha))
    refine ⟨.app (List.forall_mem_cons.2 ⟨hk, List.forall_mem_singleton.2 hk⟩), fun v _ => .inr trivial, by simp⟩
  · intro t st he v hv
    have : ∀ p ∈ elemsM, p.2.bound = [] := by decide +kernel
    rw [this _ (elem_of_closed closedM he)] at hv
    cases hv
  · intro f args st he hk hfl
    have : ∀ p ∈ elemsM, (match p.1 with | .app f _ => decide (f ≠ .msg ∧ f ≠ .cond) | _ => true) = true := by decide +kernel
    have := this _ (elem_of_closed closedM he)
    simp only [decide_eq_true_eq] at this
    cases f <;> simp [cfgK, LA, lang, kindA] at hk this
  · show MA.truth _
    simp only [Lang.ands, eval, evals]
    exact (freeStr_sem ord rel (lang_distinct _)).and _ |>.2 (fun _ h => nomatch h)

end SEx
end Dep

namespace Cry
namespace TEx
open Dep SmtM Ev Fm

/-- The predicate for names read as occurrence that does not look into `exec`. -/
def relX : V → Tm V → Tm V → Prop
  | .sub => Contains (lang (kind false)) [stp false] M0 (Every ta) (· ≠ .exec)
  | _ => fun _ _ => False

noncomputable abbrev MX : Str V (Tm V) := str relX

abbrev SbX : Sub V := nonceSub nsym

theorem readsX : Reads (K false) MX (Every ta) (· ≠ .exec) SbX := by
  refine ⟨rfl, fun o f e x d _ => ?_⟩
  cases e
  exact ⟨(agreeR false relX).symm.contains fun f l a h => ta_S f h.1, (agreeR false relX).contains fun f l a h => ta_S f h.1⟩

theorem subX : SubOK (K false) MX S ta (Every ta) (· ≠ .exec) ArgOf SbX .all where
  reads := readsX
  vp_ta := Every.is_ta
  parts := Every.parts ta
  qargs := fun _ _ _ _ _ _ _ h => .mk h
  proper := ArgOf.proper
  shrinks := default_shrinks _
  descends := ArgOf.down
  flags := .inl rfl

theorem respectsX (R : V → Tm V → Tm V → Prop) : Respects (str R) (lang (kind false)) (insort false) := by
  intro f ss s l hi ho _
  have ho : some (out f) = some s := ho
  cases ho
  cases f <;> first | (cases hi; done) | trivial | exact ⟨_, rfl⟩ | exact ⟨_, l, (rfl : special _ = false), rfl, rfl⟩

theorem exec_none {n T : Tm V} (hn : dom .name n) (hT : dom .step T) :
    ¬ Contains (lang (kind false)) [stp false] MX (Every ta) (· ≠ .exec) n (.node .exec [T]) := by
  intro h
  generalize hd : Tm.node V.exec [T] = d at h
  have hd : MX.fn .exec [T] = d := hd
  cases h with
  | here => obtain ⟨f, l, h1, h2, rfl⟩ := hn; cases hd; cases h2
  | part hv hc =>
    obtain ⟨rfl, rfl⟩ := (worldR false relX (.inl rfl)).free _ _ _ _ (show S .exec from rfl) (ta_S _ hv.1) hd
    have := hv.2
    rw [List.mem_singleton] at this
    subst this
    exact (worldR false relX (srt := .name) (.inl rfl)).none_in (vp := Every ta) Every.is_ta (.inr rfl) hT hn hc
  | opened hf ho hc =>
    obtain ⟨rfl, _⟩ := (worldR false relX (.inl rfl)).free _ _ _ _ (show S .exec from rfl) (kind_S false _ ho.kind.1) hd
    exact hf rfl

theorem execX {φ : Fm V} (h : (K false).specialAx (info false) SbX .all true .exec = some φ) (ρ : Valn (Tm V)) :
    MX.truth (Fm.eval MX ρ φ) := by
  obtain ⟨ss, hss, h⟩ := Option.bind_eq_some_iff.1 h
  cases hss
  dsimp only at h
  split at h
  swap
  · cases h
  rename_i rs p hrs hp
  cases h
  rw [truth_mkForall]
  refine quantVal_all_of MX _ _ ρ (by decide) (fun τ _ hdom => ?_)
  rw [Fm.eval, evals, evals, evals, (logicalR false relX).imp]
  intro ht
  have hx : dom .name (τ ((K false).spX (info false) SbX).id) := hdom ((K false).spX (info false) SbX) (by simp)
  exact absurd ((readsX.truth (x := .var _) hx hp).1 ht)
    (exec_none hx (hdom ⟨_, .step⟩ (List.mem_append_left _ (List.mem_singleton_self _))))

theorem allX {vampire : Bool} {axs : List (Fm V)} (h : (K false).defineSub (info false) vampire SbX .all [] true = some axs) (φ : Fm V)
    (hφ : φ ∈ axs) (ρ : Valn (Tm V)) : MX.truth (Fm.eval MX ρ φ) := by
  rcases C63_define_partial (settingR false relX) (worldR false relX (.inl rfl)) subX (infoOK false) h φ hφ with h | ⟨f, hf, h1, h2⟩
  · exact h ρ
  · cases hd : (info false).dflt f with
    | true => rw [hd] at h1; cases h1
    | false =>
      rw [hd] at h1
      by_cases he : f = .exec
      · subst he; exact execX h2 ρ
      · exact absurd (specials (by decide +kernel) f hf hd he) h1

theorem definedX : ∃ axs, (K false).defineSub (info false) false SbX .all [] true = some axs ∧ axs.length ≥ 8 := by
  have h : ((K false).defineSub (info false) false SbX .all [] true).map (fun p => decide (p.length ≥ 8)) = some true := by decide +kernel
  obtain ⟨axs, h1, h2⟩ := Option.map_eq_some_iff.1 h
  exact ⟨axs, h1, by simpa using h2⟩

/-- `mac(p, cast(x))` with a name `x`. -/
def tX : Fm V := .app .mac [.app .p [], .app .cast [.var ⟨0, .name⟩]]
/-- `mac(msg(T), p)` with a time point `T`. -/
def tY : Fm V := .app .mac [.app .msg [.var ⟨0, .step⟩], .app .p []]

theorem typedP : Typed (lang (kind false)) (insort false) (.app .p []) := .app (ss := []) rfl rfl rfl (fun _ h => nomatch h)

theorem typedX : Typed (lang (kind false)) (insort false) tX :=
  .app (ss := [.message, .message]) rfl rfl rfl (List.forall_mem_cons.2 ⟨typedP, List.forall_mem_singleton.2
    (.app (ss := [.name]) rfl rfl rfl (List.forall_mem_singleton.2 (.var _)))⟩)

theorem typedY : Typed (lang (kind false)) (insort false) tY :=
  .app (ss := [.message, .message]) rfl rfl rfl (List.forall_mem_cons.2 ⟨.app (ss := [.step]) rfl rfl rfl (List.forall_mem_singleton.2 (.var _)),
    List.forall_mem_singleton.2 typedP⟩)

/-- C65 is not vacuous for the definition of a predicate: the axioms hold, the predicate holds of a name and a term, and
what is concluded is not trivial: some subterm of sort name has that value. -/
example : ∃ axs, (K false).defineSub (info false) false SbX .all [] true = some axs ∧
    Holds MX SbX .message (nm 0) (Fm.eval MX (fun _ => nm 0) tX) ∧
    ∃ a ∈ tX.subs, ∃ s', (lang (kind false)).sortOf a = some s' ∧ ((s' = .name ∧ Fm.eval MX (fun _ => nm 0) a = nm 0) ∨
      (Stop ((K false).Listed (info false) []) a ∧
        (s' ∈ (K false).E.sorts → s' = .name ∨ (info false).taSort s' = true ∨ (K false).E.symbolic = false ∧ (info false).evaluated s' = true) ∧
        Holds MX SbX s' (nm 0) (Fm.eval MX (fun _ => nm 0) a))) := by
  obtain ⟨axs, h1, _⟩ := definedX
  have hh : Holds MX SbX .message (nm 0) (Fm.eval MX (fun _ => nm 0) tX) := by
    refine ⟨.sub, rfl, (readsX.2 none _ rfl _ _ (nm_dom 0)).2 ?_⟩
    exact .part (M := MX) (f := .mac) (a := .node .cast [nm 0]) (l := [.node .p [], .node .cast [nm 0]]) ⟨rfl, by simp⟩
      (.part (M := MX) (f := .cast) (l := [nm 0]) ⟨rfl, by simp⟩ .here)
  refine ⟨axs, h1, hh, ?_⟩
  exact C65_define (Sb := SbX) (logicalR false relX) rfl (respectsX relX) h1 (fun φ hφ => allX h1 φ hφ (fun _ => nm 0)) (nm_dom 0) typedX
    (fun v hv => by simp [tX, Fm.vars, varss] at hv; subst hv; exact nm_dom 0) rfl hh

/-- The axioms about nonces hold too. -/
theorem nonceX : ∃ axs g, (K false).nonce (info false) false nsym = some (axs, g) ∧ ∀ φ ∈ axs, ∀ ρ, MX.truth (Fm.eval MX ρ φ) := by
  have h : ((K false).nonce (info false) false nsym).isSome = true := by decide +kernel
  obtain ⟨⟨axs, g⟩, h⟩ := Option.isSome_iff_exists.1 h
  refine ⟨axs, g, h, fun φ hφ ρ => ?_⟩
  have hl := logicalR false relX
  have W : World (K false) MX S ta .name gr := worldR false relX (.inl rfl)
  unfold Pbl.nonce at h
  dsimp only at h
  split at h
  swap
  · cases h
  rename_i a b c d g' ha hb hc hd hg
  cases h
  simp only [Bool.false_eq_true, if_false] at ha
  split at ha
  swap
  · cases ha
  rename_i a' b' ha' hb'
  cases ha
  simp only [List.mem_append, List.mem_cons, List.not_mem_nil, or_false] at hφ
  rcases hφ with ((hφ | hφ) | hφ) | rfl | rfl
  · exact C46_function (Sb := SbX) hl W readsX Every.is_ta (infoOK false) ha' ρ φ hφ
  · obtain ⟨s, hs, h⟩ := mapO_mem hb' φ hφ
    simp only [Pbl.nonceSorts, List.mem_filter, Bool.not_eq_true', Bool.or_eq_false_iff, decide_eq_false_iff_not] at hs
    exact C46_not_of_sort (Sb := SbX) hl W readsX Every.is_ta ((infoOK false).sorts s hs.1 hs.2.2 hs.2.1) h ρ
  · obtain ⟨f, hf, h⟩ := mapO_mem hb φ hφ
    simp only [List.mem_filter, Bool.and_eq_true, Bool.or_eq_true, Bool.not_eq_true', List.contains_nil,
      Bool.false_eq_true, or_false] at hf
    by_cases he : f = .exec
    · subst he; exact execX h ρ
    · exact C46_special_partial (settingR false relX) W subX hf.2.1 (specials (by decide +kernel) f hf.1 hf.2.2 he) h ρ
  · unfold Pbl.nameAx at hc
    obtain ⟨p, hp, rfl⟩ := Option.map_eq_some_iff.1 hc
    rw [truth_mkForall]
    refine quantVal_all_of MX _ _ ρ (by simp) (fun τ _ hdom => ?_)
    have h0 : MX.dom .name (τ 0) := hdom ⟨0, .name⟩ (by simp)
    have h1 : MX.dom .name (τ 1) := hdom ⟨1, .name⟩ (by simp)
    simp only [Fm.eval, evals, Lang.meq]
    rw [hl.imp, hl.sem.eq, readsX.truth (x := .var ⟨0, .name⟩) h0 hp]
    exact name_in_name W Every.is_ta (namesOK false).names h1
  · simp only [Pbl.evalAx] at hd
    split at hd
    swap
    · cases hd
    rename_i a b ha hb
    cases hd
    have hcs : ∀ v, (lang (kind false)).sortOf (.app .cast [.var v]) = some .message := fun v => sortOf_app rfl _
    rw [truth_mkForall]
    refine quantVal_all_of MX _ _ ρ (by simp) (fun τ _ hdom => ?_)
    simp only [Fm.eval, evals, Lang.meq]
    rw [hl.imp, hl.sem.eq, hl.sem.eq, eval_val MX (hcs _) ha, eval_val MX (hcs _) hb]
    intro h
    have h : val (.node .cast [τ 0]) = val (.node .cast [τ 1]) := h
    have e : ∀ d, val (.node .cast [d]) = .node .cast [d] := fun _ => rfl
    rw [e, e] at h
    simpa using h

/-- C65 is not vacuous for nonces, and excludes other names: whatever holds of the predicate besides, the name `k(1)` is not
in `mac(p, cast(k(0)))`. -/
example : Holds MX SbX .message (nm 0) (Fm.eval MX (fun _ => nm 0) tX) ∧ ¬ Holds MX SbX .message (nm 1) (Fm.eval MX (fun _ => nm 0) tX) := by
  constructor
  · refine ⟨.sub, rfl, (readsX.2 none _ rfl _ _ (nm_dom 0)).2 ?_⟩
    exact .part (M := MX) (f := .mac) (a := .node .cast [nm 0]) (l := [.node .p [], .node .cast [nm 0]]) ⟨rfl, by simp⟩
      (.part (M := MX) (f := .cast) (l := [nm 0]) ⟨rfl, by simp⟩ .here)
  · intro hh
    obtain ⟨axs, g, h1, h2⟩ := nonceX
    obtain ⟨a, ha, s, hs, h⟩ := C65_nonce (K := K false) (I := info false) (logicalR false relX) (respectsX relX) h1
      (fun φ hφ => h2 φ hφ (fun _ => nm 0)) (nm_dom 1) typedX (fun v hv => by simp [tX, Fm.vars, varss] at hv; subst hv; exact nm_dom 0) rfl hh
    simp [tX, Fm.subs, Fm.subss] at ha
    have listed : ∀ f ∈ [V.mac, .p, .cast], (K false).Listed (info false) [] f := by
      intro f hf
      simp only [List.mem_cons, List.not_mem_nil, or_false] at hf
      rcases hf with rfl | rfl | rfl <;> exact ⟨by decide, rfl, by simp⟩
    have hne : nm 0 ≠ nm 1 := by simp [nm]
    rcases ha with rfl | rfl | rfl | rfl
    · rcases h with ⟨rfl, _⟩ | ⟨h, _⟩
      · cases hs
      · exact h (listed _ (by simp))
    · rcases h with ⟨rfl, _⟩ | ⟨h, _⟩
      · cases hs
      · exact h (listed _ (by simp))
    · rcases h with ⟨rfl, _⟩ | ⟨h, _⟩
      · cases hs
      · exact h (listed _ (by simp))
    · rcases h with ⟨_, h⟩ | ⟨_, _, p', hp, h⟩
      · exact hne h
      · rw [sortOf_var] at hs; cases hs
        cases hp
        exact hne (name_in_name (worldR false relX (.inl rfl)) (vp := Every ta) Every.is_ta (namesOK false).names (nm_dom 0)
          ((readsX.2 none _ rfl _ _ (nm_dom 1)).1 h)).symm

/-- The time point of the first session. -/
def t0 : Tm V := .node .s [.atom 0]

/-- C65 is not vacuous for terms with macros: the axioms of the symbols of `mac(msg(T), p)` hold, and what is concluded is
that the name is reached from its value. -/
example : Holds MX SbX .message (nm 0) (Fm.eval MX (fun _ => t0) tY) ∧
    Reaches (lang (kind false)) [stp false] [cel false] MX AnyPart true (Fm.eval MX (fun _ => t0) tY) (nm 0) := by
  have hh : Holds MX SbX .message (nm 0) (Fm.eval MX (fun _ => t0) tY) := by
    refine ⟨.sub, rfl, (readsX.2 none _ rfl _ _ (nm_dom 0)).2 ?_⟩
    refine .part (M := MX) (f := .mac) (a := .node .msg [t0]) (l := [.node .msg [t0], .node .p []]) ⟨rfl, by simp⟩ ?_
    refine .opened (M := MX) (f := .msg) (l := [t0]) (y := ((stp false).message, fun _ => .atom 0)) (by simp)
      (.msg (s := stp false) (σ := fun _ => .atom 0) (M := MX) rfl (List.mem_singleton_self _) (fun v hv => by
        have hv : v ∈ [x0] := hv
        rw [List.mem_singleton] at hv; subst hv; exact ⟨0, rfl⟩)) ?_
    refine .part (M := MX) (f := .mac) (a := .node .cast [nm 0]) (l := [.node .input [t0], .node .cast [nm 0]]) ⟨rfl, by simp⟩
      (.part (M := MX) (f := .cast) (l := [nm 0]) ⟨rfl, by simp⟩ .here)
  refine ⟨hh, ?_⟩
  obtain ⟨axs, h1, _⟩ := definedX
  have fnK : ∀ f ∈ [V.mac, .p], Known (K false) (info false) MX SbX .all true (fun _ => t0) f := by
    intro f hf
    simp only [List.mem_cons, List.not_mem_nil, or_false] at hf
    obtain ⟨φ, h2, h3⟩ := (C65_covered h1 (f := f) (by rcases hf with rfl | rfl <;> decide)).1 rfl
      (by rcases hf with rfl | rfl <;> rfl) (by simp)
    exact .inl ⟨φ, h3, allX h1 φ h2 _⟩
  have msgK : Known (K false) (info false) MX SbX .all true (fun _ => t0) .msg := by
    obtain ⟨φ, h2, h3⟩ := (C65_covered h1 (f := V.msg) (by decide)).2 rfl (.inl rfl)
    exact .inr ⟨φ, h3, allX h1 φ h2 _, fun ss hss => ((specials (by decide +kernel) V.msg (by decide) rfl (by decide)).2 ss hss).2⟩
  have hd : InDom MX tY.vars (fun _ => t0) := by
    intro v hv
    simp [tY, Fm.vars, varss] at hv
    subst hv
    exact ⟨_, rfl⟩
  rcases C65_occurs_partial (Sb := SbX) (fl := .all) (keepGuard := true) (ρ := fun _ => t0) (settingR false relX) rfl (default_shrinks _) (default_digs _)
    (respectsX relX) (nm_dom 0) typedY (.app (fnK _ (by simp)) (List.forall_mem_cons.2 ⟨.app msgK (List.forall_mem_singleton.2 (.var _)),
      List.forall_mem_singleton.2 (.app (fnK _ (by simp)) (fun _ h => nomatch h))⟩)) hd rfl hh with h | ⟨v, hv, p', hp, h⟩
  · exact h
  · simp [tY, Fm.vars, varss] at hv
    subst hv
    cases hp
    exact absurd ((readsX.2 none _ rfl _ _ (nm_dom 0)).1 h)
      ((worldR false relX (srt := .name) (.inl rfl)).none_in (vp := Every ta) Every.is_ta (s := .step) (.inr rfl) ⟨_, rfl⟩ (nm_dom 0))

/-- The lists of axioms of C65_predicates are defined, and not short. -/
example (vampire : Bool) :
    (∃ a, (K false).defineSub (info false) vampire (U.key (K false)) .noRecMacro [U.mac, U.verify] false = some a ∧ a.length ≥ 3) ∧
    (∃ a, (K false).defineSub (info false) vampire W.main .all [] true = some a ∧ a.length ≥ 3) ∧
    ∃ a, (K false).defineSub (info false) vampire X.main .all [] true = some a ∧ a.length ≥ 3 := by
  have key : ∀ {o : Option (List (Fm V))}, o.map (fun p => decide (p.length ≥ 3)) = some true → ∃ a, o = some a ∧ a.length ≥ 3 := by
    intro o h
    obtain ⟨a, h1, h2⟩ := Option.map_eq_some_iff.1 h
    exact ⟨a, h1, by simpa using h2⟩
  exact ⟨key (by cases vampire <;> decide +kernel), key (by cases vampire <;> decide +kernel), key (by cases vampire <;> decide +kernel)⟩

example (vampire : Bool) : ∃ axs, U.defineSubterms (K false) (info false) vampire = some axs ∧
    ∃ a, (K false).defineSub (info false) vampire (U.main (K false)) .all [U.mac, U.verify] true = some a ∧ ∀ φ ∈ a, φ ∈ axs := by
  have h : (U.defineSubterms (K false) (info false) vampire).isSome = true := by cases vampire <;> decide +kernel
  obtain ⟨axs, h⟩ := Option.isSome_iff_exists.1 h
  exact ⟨axs, h, ((C65_predicates _ _ vampire axs rfl).1 U h).2⟩

end TEx
end Cry
end CV
