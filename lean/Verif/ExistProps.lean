import Verif.SearchEx
import Verif.FreeModel
import Mathlib.Data.List.Nodup
import Mathlib.Tactic.Choose
import Mathlib.Tactic.ByContra
set_option linter.unusedSimpArgs false
/-
Property C31: the existential closure of a disjunction.
-/
namespace CV
namespace Dep
open Fm
variable {F D : Type}

theorem quantVal_ex_iff (M : Str F D) (P : Valn D → Prop) : ∀ (vs : List Var) (ρ : Valn D), (vs.map Var.id).Nodup →
    (quantVal M .ex vs P ρ ↔ ∃ τ, (∀ i, i ∉ vs.map Var.id → τ i = ρ i) ∧ InDom M vs τ ∧ P τ) := by
  intro vs ρ hnd
  constructor
  · induction vs generalizing ρ with
    | nil => intro h; exact ⟨ρ, fun _ _ => rfl, fun _ h' => (nomatch h'), h⟩
    | cons v vs ih =>
      rintro ⟨d, hd, h⟩
      simp only [List.map_cons, List.nodup_cons] at hnd
      obtain ⟨τ, h1, h2, h3⟩ := ih _ hnd.2 h
      refine ⟨τ, ?_, ?_, h3⟩
      · intro i hi
        simp only [List.map_cons, List.mem_cons, not_or] at hi
        rw [h1 i hi.2, Valn.set_ne _ _ hi.1]
      · intro w hw
        rcases List.mem_cons.1 hw with rfl | hw
        · rw [h1 _ hnd.1, Valn.set_self]; exact hd
        · exact h2 w hw
  · rintro ⟨τ, h1, h2, h3⟩
    exact quantVal_ex_of M P τ h3 vs ρ h1 h2

theorem truth_mkExists (M : Str F D) (ρ : Valn D) (vs : List Var) (b : Fm F) :
    M.truth (eval M ρ (mkExists vs b)) ↔ quantVal M .ex vs (fun τ => M.truth (eval M τ b)) ρ := by
  cases vs with
  | nil => simp [mkExists, quantVal]
  | cons v vs => simp only [mkExists, List.isEmpty_cons, Bool.false_eq_true, if_false, eval, M.truth_ofProp]

theorem quantVal_ex_exists {ι : Type} (M : Str F D) (I : ι → Prop) (A : ι → Valn D → Prop) : ∀ (vs : List Var) (ρ : Valn D),
    (quantVal M .ex vs (fun τ => ∃ i, I i ∧ A i τ) ρ ↔ ∃ i, I i ∧ quantVal M .ex vs (A i) ρ) := by
  intro vs
  induction vs with
  | nil => intro ρ; rfl
  | cons v vs ih =>
    intro ρ
    simp only [quantVal]
    constructor
    · rintro ⟨d, hd, h⟩
      obtain ⟨i, hi, h⟩ := (ih _).1 h
      exact ⟨i, hi, d, hd, h⟩
    · rintro ⟨i, hi, d, hd, h⟩
      exact ⟨d, hd, (ih _).2 ⟨i, hi, h⟩⟩

theorem quantVal_ex_congr (M : Str F D) {P Q : Valn D → Prop} (h : ∀ τ, P τ ↔ Q τ) (vs : List Var) (ρ : Valn D) :
    quantVal M .ex vs P ρ ↔ quantVal M .ex vs Q ρ := by
  have : P = Q := funext fun τ => propext (h τ)
  rw [this]

theorem mem_uniq {α : Type} [DecidableEq α] (l : List α) (a : α) : a ∈ uniq l ↔ a ∈ l := by
  induction l with
  | nil => simp [uniq]
  | cons b l ih =>
    simp only [uniq, List.mem_cons, List.mem_filter, ih, decide_eq_true_eq]
    by_cases h : a = b
    · simp [h]
    · simp [h]

theorem uniq_nodup {α : Type} [DecidableEq α] (l : List α) : (uniq l).Nodup := by
  induction l with
  | nil => exact List.nodup_nil
  | cons b l ih =>
    simp only [uniq, List.nodup_cons, List.mem_filter]
    exact ⟨by simp, List.Nodup.filter _ ih⟩

/-- Widening the block: variables that `P` does not depend on, of inhabited sorts, may be quantified too. -/
theorem hoist (M : Str F D) (φ : Fm F) (vs vmax : List Var) (hnd : (vs.map Var.id).Nodup) (hnd' : (vmax.map Var.id).Nodup)
    (hin : ∀ w ∈ vmax, w ∈ vs ∨ w.id ∉ vs.map Var.id) (hdom : ∀ w ∈ vmax, ∃ d, M.dom w.sort d)
    (hfree : ∀ w ∈ vmax, w.id ∉ vs.map Var.id → ∀ v ∈ φ.free, v.id ≠ w.id) (ρ : Valn D) :
    quantVal M .ex vmax (fun τ => quantVal M .ex (vs.filter (fun v => !vmax.contains v)) (fun τ => M.truth (eval M τ φ)) τ) ρ ↔
      quantVal M .ex vs (fun τ => M.truth (eval M τ φ)) ρ := by
  have hnd2 : ((vs.filter (fun v => !vmax.contains v)).map Var.id).Nodup :=
    hnd.sublist (List.filter_sublist.map _)
  have hmem : ∀ v, v ∈ vs.filter (fun v => !vmax.contains v) ↔ v ∈ vs ∧ v ∉ vmax := by simp
  have huniq : ∀ v ∈ vs, ∀ w ∈ vs, v.id = w.id → v = w := by
    intro v hv w hw e
    exact List.inj_on_of_nodup_map hnd hv hw e
  rw [quantVal_ex_iff M _ vmax ρ hnd', quantVal_ex_iff M _ vs ρ hnd]
  constructor
  · rintro ⟨τ1, h1, h2, h3⟩
    obtain ⟨τ2, h4, h5, h6⟩ := (quantVal_ex_iff M _ _ τ1 hnd2).1 h3
    refine ⟨fun i => if i ∈ vs.map Var.id then τ2 i else ρ i, fun i hi => if_neg hi, ?_, ?_⟩
    · intro v hv
      simp only [if_pos (List.mem_map_of_mem (f := Var.id) hv)]
      by_cases hm : v ∈ vmax
      · rw [h4]
        · exact h2 v hm
        · intro h'
          obtain ⟨w, hw, e⟩ := List.mem_map.1 h'
          obtain ⟨hw1, hw2⟩ := (hmem w).1 hw
          exact hw2 (huniq w hw1 v hv e ▸ hm)
      · exact h5 v ((hmem v).2 ⟨hv, hm⟩)
    · show M.truth (eval M _ φ)
      rw [eval_agree M φ _ τ2]
      · exact h6
      · intro v hv
        by_cases hi : v.id ∈ vs.map Var.id
        · rw [if_pos hi]
        · simp only [if_neg hi]
          rw [h4 v.id (fun h' => by
            obtain ⟨w, hw, e⟩ := List.mem_map.1 h'
            exact hi (e ▸ List.mem_map_of_mem ((hmem w).1 hw).1))]
          rw [h1 v.id (fun h' => by
            obtain ⟨w, hw, e⟩ := List.mem_map.1 h'
            exact hfree w hw (e ▸ hi) v hv e.symm)]
  · rintro ⟨τ, h1, h2, h3⟩
    have hch : ∀ i, ∃ d, ∀ w ∈ vmax, w.id = i → i ∉ vs.map Var.id → M.dom w.sort d := by
      intro i
      by_cases hw : ∃ w ∈ vmax, w.id = i
      · obtain ⟨w, hw, e⟩ := hw
        obtain ⟨d, hd⟩ := hdom w hw
        refine ⟨d, fun w' hw' e' _ => ?_⟩
        rw [List.inj_on_of_nodup_map hnd' hw' hw (e'.trans e.symm)]
        exact hd
      · exact ⟨ρ i, fun w hw' e _ => absurd ⟨w, hw', e⟩ hw⟩
    choose dflt hdflt using hch
    let τ1 : Valn D := fun i => if i ∈ vmax.map Var.id then (if i ∈ vs.map Var.id then τ i else dflt i) else ρ i
    refine ⟨τ1, fun i hi => if_neg hi, ?_, ?_⟩
    · intro w hw
      simp only [τ1, if_pos (List.mem_map_of_mem (f := Var.id) hw)]
      by_cases hi : w.id ∈ vs.map Var.id
      · rw [if_pos hi]
        rcases hin w hw with h | h
        · exact h2 w h
        · exact absurd hi h
      · rw [if_neg hi]
        exact hdflt w.id w hw rfl hi
    · rw [quantVal_ex_iff M _ _ τ1 hnd2]
      refine ⟨fun i => if i ∈ vs.map Var.id then τ i else τ1 i, ?_, ?_, ?_⟩
      · intro i hi
        show (if i ∈ vs.map Var.id then τ i else τ1 i) = τ1 i
        by_cases hi' : i ∈ vs.map Var.id
        · rw [if_pos hi']
          obtain ⟨v, hv, e⟩ := List.mem_map.1 hi'
          have hm : v ∈ vmax := by
            by_contra hm
            exact hi (e ▸ List.mem_map_of_mem ((hmem v).2 ⟨hv, hm⟩))
          simp only [τ1]
          rw [if_pos (e ▸ List.mem_map_of_mem hm), if_pos hi']
        · rw [if_neg hi']
      · intro v hv
        have := (hmem v).1 hv
        simp only [if_pos (List.mem_map_of_mem (f := Var.id) this.1)]
        exact h2 v this.1
      · show M.truth (eval M _ φ)
        rw [eval_agree M φ _ τ]
        · exact h3
        · intro v hv
          by_cases hi : v.id ∈ vs.map Var.id
          · rw [if_pos hi]
          · simp only [if_neg hi, τ1]
            rw [if_neg, h1 v.id hi]
            intro h'
            obtain ⟨w, hw, e⟩ := List.mem_map.1 h'
            exact hfree w hw (e ▸ hi) v hv e.symm

theorem mem_exPositions (content : List (List Var × Fm F)) (v : Var) (i : Nat) : i ∈ exPositions content v ↔
    ∃ p, content[i]? = some p ∧ (v ∈ p.1 ∨ v.id ∉ p.1.map Var.id) := by
  simp only [exPositions, List.mem_map, List.mem_filter]
  constructor
  · rintro ⟨⟨p, j⟩, ⟨h1, h2⟩, rfl⟩
    rw [List.mem_zipIdx_iff_getElem?] at h1
    exact ⟨p, h1, by simpa using h2⟩
  · rintro ⟨p, h1, h2⟩
    exact ⟨(p, i), ⟨by rw [List.mem_zipIdx_iff_getElem?]; exact h1, by simpa using h2⟩, rfl⟩

/-- **C31.** The formula made of the results holds exactly when one of them does, for some values of the
variables it lists: provided that the variables listed by a result have distinct numbers and inhabited
sorts, and that a variable listed by one result is not free in another that does not list it.
`_partial`: without the last condition it is false, see `C31_capture_counterexample`. -/
theorem C31_into_exist_partial [DecidableEq F] (L : Lang F) (M : Str F D) (hsem : Sem L M) (results : List (List Var × Fm F))
    (hnd : ∀ p ∈ results, (p.1.map Var.id).Nodup) (hdom : ∀ p ∈ results, ∀ v ∈ p.1, ∃ d, M.dom v.sort d)
    (hfree : ∀ p ∈ results, ∀ q ∈ results, ∀ w ∈ q.1, w.id ∉ p.1.map Var.id → ∀ v ∈ p.2.free, v.id ≠ w.id) (ρ : Valn D) :
    M.truth (eval M ρ (intoExist L results)) ↔
      ∃ p ∈ results, quantVal M .ex p.1 (fun τ => M.truth (eval M τ p.2)) ρ := by
  have hu : ∀ p, p ∈ uniq results ↔ p ∈ results := mem_uniq results
  unfold intoExist
  simp only []
  generalize uniq results = content at hu
  cases hx : exMax content with
  | none =>
    have hk : exKeys content = [] := by
      unfold exMax at hx
      split at hx
      · assumption
      · cases hx
    have he : ∀ p ∈ content, p.1 = [] := by
      intro p hp
      rw [List.eq_nil_iff_forall_not_mem]
      intro v hv
      have : v ∈ exKeys content := (mem_uniq _ _).2 (List.mem_flatMap.2 ⟨p, hp, hv⟩)
      rw [hk] at this; cases this
    simp only [hx, Lang.ors, eval, evals_eq, List.map_map]
    rw [hsem.or]
    constructor
    · rintro ⟨d, hd, ht⟩
      obtain ⟨p, hp, rfl⟩ := List.mem_map.1 hd
      refine ⟨p, (hu p).1 hp, ?_⟩
      rw [he p hp]; exact ht
    · rintro ⟨p, hp, ht⟩
      rw [he p ((hu p).2 hp)] at ht
      exact ⟨_, List.mem_map_of_mem ((hu p).2 hp), ht⟩
  | some pm =>
    obtain ⟨pos, vmax⟩ := pm
    have hmax : (∀ w ∈ vmax, exPositions content w = pos) ∧ ∀ w ∈ vmax, ∃ p ∈ content, w ∈ p.1 := by
      unfold exMax at hx
      split at hx
      · cases hx
      · rename_i v vs hk
        simp only [Option.some.injEq, Prod.mk.injEq] at hx
        obtain ⟨h1, h2⟩ := hx
        subst h2
        refine ⟨?_, ?_⟩
        · intro w hw
          have := (List.mem_filter.1 hw).2
          rw [h1] at this
          simpa using this
        · intro w hw
          have : w ∈ exKeys content := by rw [hk]; exact (List.mem_filter.1 hw).1
          obtain ⟨p, hp, hv⟩ := List.mem_flatMap.1 ((mem_uniq _ _).1 this)
          exact ⟨p, hp, hv⟩
    have hnd' : (vmax.map Var.id).Nodup := by
      have hs : vmax.Nodup := by
        unfold exMax at hx
        split at hx
        · cases hx
        · rename_i v vs hk
          simp only [Option.some.injEq, Prod.mk.injEq] at hx
          rw [← hx.2, ← hk]
          exact List.Nodup.filter _ (uniq_nodup _)
      refine List.Nodup.map_on ?_ hs
      intro v hv w hw e
      obtain ⟨p, hp, hvp⟩ := hmax.2 v hv
      obtain ⟨i, hi⟩ := List.getElem?_of_mem hp
      have hvi : i ∈ exPositions content v := (mem_exPositions _ _ _).2 ⟨p, hi, .inl hvp⟩
      rw [hmax.1 v hv, ← hmax.1 w hw] at hvi
      obtain ⟨p', hp', h⟩ := (mem_exPositions _ _ _).1 hvi
      rw [hi] at hp'; cases hp'
      rcases h with h | h
      · exact List.inj_on_of_nodup_map (hnd p ((hu p).1 hp)) hvp h e
      · exact absurd (e ▸ List.mem_map_of_mem hvp) h
    have hin : ∀ i ∈ pos, ∀ p, content[i]? = some p → ∀ w ∈ vmax, w ∈ p.1 ∨ w.id ∉ p.1.map Var.id := by
      intro i hi p hp w hw
      rw [← hmax.1 w hw] at hi
      obtain ⟨p', hp', h⟩ := (mem_exPositions _ _ _).1 hi
      rw [hp] at hp'; cases hp'
      exact h
    have hoistAt : ∀ i ∈ pos, ∀ p, content[i]? = some p →
        (quantVal M .ex vmax (fun τ => M.truth (eval M τ (mkExists (p.1.filter (fun v => !vmax.contains v)) p.2))) ρ ↔
          quantVal M .ex p.1 (fun τ => M.truth (eval M τ p.2)) ρ) := by
      intro i hi p hp
      have hp' := (hu p).1 (List.mem_of_getElem? hp)
      rw [quantVal_ex_congr M (fun τ => truth_mkExists M τ _ _)]
      refine hoist M p.2 p.1 vmax (hnd p hp') hnd' (hin i hi p hp) ?_ ?_ ρ
      · intro w hw
        obtain ⟨q, hq, hwq⟩ := hmax.2 w hw
        exact hdom q ((hu q).1 hq) w hwq
      · intro w hw hn
        obtain ⟨q, hq, hwq⟩ := hmax.2 w hw
        exact hfree p hp' q ((hu q).1 hq) w hwq hn
    simp only [hx, Lang.ors, eval, evals_eq, List.map_cons]
    rw [hsem.or]
    simp only [List.mem_cons, exists_eq_or_imp]
    have first : M.truth (eval M ρ (mkExists vmax (.app L.or (pos.filterMap (fun i => (content[i]?).map
        (fun p => mkExists (p.1.filter (fun v => !vmax.contains v)) p.2)))))) ↔
        ∃ i p, (i ∈ pos ∧ content[i]? = some p) ∧ quantVal M .ex p.1 (fun τ => M.truth (eval M τ p.2)) ρ := by
      rw [truth_mkExists]
      have e : ∀ τ, M.truth (eval M τ (.app L.or (pos.filterMap (fun i => (content[i]?).map
        (fun p => mkExists (p.1.filter (fun v => !vmax.contains v)) p.2))))) ↔
          ∃ ip : Nat × (List Var × Fm F), (ip.1 ∈ pos ∧ content[ip.1]? = some ip.2) ∧
            M.truth (eval M τ (mkExists (ip.2.1.filter (fun v => !vmax.contains v)) ip.2.2)) := by
        intro τ
        simp only [eval, evals_eq]
        rw [hsem.or]
        constructor
        · rintro ⟨d, hd, ht⟩
          obtain ⟨g, hg, rfl⟩ := List.mem_map.1 hd
          obtain ⟨i, hi, hg⟩ := List.mem_filterMap.1 hg
          obtain ⟨p, hp, rfl⟩ := Option.map_eq_some_iff.1 hg
          exact ⟨(i, p), ⟨hi, hp⟩, ht⟩
        · rintro ⟨⟨i, p⟩, ⟨hi, hp⟩, ht⟩
          refine ⟨_, List.mem_map_of_mem (List.mem_filterMap.2 ⟨i, hi, ?_⟩), ht⟩
          simp [hp]
      rw [quantVal_ex_congr M e, quantVal_ex_exists]
      constructor
      · rintro ⟨⟨i, p⟩, ⟨hi, hp⟩, h⟩
        exact ⟨i, p, ⟨hi, hp⟩, (hoistAt i hi p hp).1 h⟩
      · rintro ⟨i, p, ⟨hi, hp⟩, h⟩
        exact ⟨(i, p), ⟨hi, hp⟩, (hoistAt i hi p hp).2 h⟩
    rw [first]
    constructor
    · rintro (⟨i, p, ⟨_, hp⟩, h⟩ | ⟨d, hd, ht⟩)
      · exact ⟨p, (hu p).1 (List.mem_of_getElem? hp), h⟩
      · obtain ⟨g, hg, rfl⟩ := List.mem_map.1 hd
        obtain ⟨⟨p, i⟩, hpi, rfl⟩ := List.mem_map.1 hg
        have := (List.mem_filter.1 hpi).1
        rw [List.mem_zipIdx_iff_getElem?] at this
        exact ⟨p, (hu p).1 (List.mem_of_getElem? this), (truth_mkExists M ρ _ _).1 ht⟩
    · rintro ⟨p, hp, h⟩
      obtain ⟨i, hi⟩ := List.getElem?_of_mem ((hu p).2 hp)
      by_cases hm : i ∈ pos
      · exact .inl ⟨i, p, ⟨hm, hi⟩, h⟩
      · refine .inr ⟨_, List.mem_map_of_mem (List.mem_map_of_mem (a := (p, i)) (List.mem_filter.2 ⟨?_, ?_⟩)),
          (truth_mkExists M ρ _ _).2 h⟩
        · rw [List.mem_zipIdx_iff_getElem?]; exact hi
        · simpa using hm

/-! ### The variables of what the search reports -/

theorem sub_add {P : Nat → Prop} {s : MSubst F} (h : ∀ p ∈ s, P p.1 ∧ ∀ v ∈ p.2.vars, P v.id) {i : Nat} {t : Fm F}
    (hi : P i) (ht : ∀ v ∈ t.vars, P v.id) : ∀ p ∈ MSubst.add s i t, P p.1 ∧ ∀ v ∈ p.2.vars, P v.id := by
  intro p hp
  simp only [MSubst.add, List.mem_append, List.mem_singleton] at hp
  rcases hp with hp | rfl
  · exact h p hp
  · exact ⟨hi, ht⟩

theorem sub_get {P : Nat → Prop} {s : MSubst F} (h : ∀ p ∈ s, P p.1 ∧ ∀ v ∈ p.2.vars, P v.id) {i : Nat} {t : Fm F}
    (hg : s.maybeGet i = some t) : ∀ v ∈ t.vars, P v.id := by
  simp only [MSubst.maybeGet, Option.map_eq_some_iff] at hg
  obtain ⟨p, hp, rfl⟩ := hg
  exact (h p (List.mem_of_find?_eq_some hp)).2

theorem mguAux_vars [DecidableEq F] (P : Nat → Prop) : ∀ (n : Nat) (l r : Fm F) (lp rp : MSubst F) (b : Bool) (lp' rp' : MSubst F),
    mguAux n l r lp rp = some (b, lp', rp') → (∀ v ∈ l.vars, P v.id) → (∀ v ∈ r.vars, P v.id) →
    (∀ p ∈ lp, P p.1 ∧ ∀ v ∈ p.2.vars, P v.id) → (∀ p ∈ rp, P p.1 ∧ ∀ v ∈ p.2.vars, P v.id) →
    (∀ p ∈ lp', P p.1 ∧ ∀ v ∈ p.2.vars, P v.id) ∧ ∀ p ∈ rp', P p.1 ∧ ∀ v ∈ p.2.vars, P v.id := by
  intro n
  induction n with
  | zero => intro l r lp rp b lp' rp' h; simp [mguAux] at h
  | succ n ih =>
    have all : ∀ (as bs : List (Fm F)) (lp rp : MSubst F) (b : Bool) (lp' rp' : MSubst F),
        mguAll (mguAux n) as bs lp rp = some (b, lp', rp') → (∀ v ∈ varss as, P v.id) → (∀ v ∈ varss bs, P v.id) →
        (∀ p ∈ lp, P p.1 ∧ ∀ v ∈ p.2.vars, P v.id) → (∀ p ∈ rp, P p.1 ∧ ∀ v ∈ p.2.vars, P v.id) →
        (∀ p ∈ lp', P p.1 ∧ ∀ v ∈ p.2.vars, P v.id) ∧ ∀ p ∈ rp', P p.1 ∧ ∀ v ∈ p.2.vars, P v.id := by
      intro as
      induction as with
      | nil =>
        intro bs lp rp b lp' rp' h _ _ h3 h4
        simp only [mguAll, Option.some.injEq, Prod.mk.injEq] at h
        obtain ⟨_, rfl, rfl⟩ := h
        exact ⟨h3, h4⟩
      | cons a as iha =>
        intro bs lp rp b lp' rp' h h1 h2 h3 h4
        cases bs with
        | nil =>
          simp only [mguAll, Option.some.injEq, Prod.mk.injEq] at h
          obtain ⟨_, rfl, rfl⟩ := h
          exact ⟨h3, h4⟩
        | cons c bs =>
          simp only [varss, List.mem_append] at h1 h2
          simp only [mguAll] at h
          split at h
          · rename_i lp1 rp1 hk
            obtain ⟨h5, h6⟩ := ih _ _ _ _ _ _ _ hk (fun v hv => h1 v (.inl hv)) (fun v hv => h2 v (.inl hv)) h3 h4
            exact iha _ _ _ _ _ _ h (fun v hv => h1 v (.inr hv)) (fun v hv => h2 v (.inr hv)) h5 h6
          · exact ih _ _ _ _ _ _ _ h (fun v hv => h1 v (.inl hv)) (fun v hv => h2 v (.inl hv)) h3 h4
    intro l r lp rp b lp' rp' h hl hr h3 h4
    have same : ∀ {b'}, some (b', lp, rp) = some (b, lp', rp') →
        (∀ p ∈ lp', P p.1 ∧ ∀ v ∈ p.2.vars, P v.id) ∧ ∀ p ∈ rp', P p.1 ∧ ∀ v ∈ p.2.vars, P v.id := by
      intro b' e
      simp only [Option.some.injEq, Prod.mk.injEq] at e
      obtain ⟨_, rfl, rfl⟩ := e
      exact ⟨h3, h4⟩
    cases l with
    | var v =>
      simp only [mguAux] at h
      split at h
      · exact same h
      · split at h
        · rename_i v2 hg
          split at h
          · rename_i v3 _
            split at h
            · exact same h
            · split at h
              · exact same h
              · simp only [Option.some.injEq, Prod.mk.injEq] at h
                obtain ⟨_, rfl, rfl⟩ := h
                exact ⟨h3, sub_add h4 (hr v3 (by simp [Fm.vars])) (sub_get h3 hg)⟩
          · exact same h
        · rename_i nl hnv hg
          exact ih _ _ _ _ _ _ _ h (sub_get h3 hg) hr h3 h4
        · simp only [Option.some.injEq, Prod.mk.injEq] at h
          obtain ⟨_, rfl, rfl⟩ := h
          exact ⟨sub_add h3 (hl v (by simp [Fm.vars])) hr, h4⟩
    | app f as =>
      cases r with
      | var v =>
        simp only [mguAux] at h
        split at h
        · exact same h
        · rename_i nl hnv hg
          exact ih _ _ _ _ _ _ _ h (sub_get h4 hg) hr h3 h4
        · simp only [Option.some.injEq, Prod.mk.injEq] at h
          obtain ⟨_, rfl, rfl⟩ := h
          exact ⟨h3, sub_add h4 (hr v (by simp [Fm.vars])) hl⟩
      | app g bs =>
        simp only [mguAux] at h
        split at h
        · exact all as bs lp rp b lp' rp' h (by simpa [Fm.vars] using hl) (by simpa [Fm.vars] using hr) h3 h4
        · exact same h
      | quant q vs c => simp only [mguAux] at h; exact same h
    | quant q vs c =>
      cases r with
      | var v =>
        simp only [mguAux] at h
        split at h
        · exact same h
        · rename_i nl hnv hg
          exact ih _ _ _ _ _ _ _ h (sub_get h4 hg) hr h3 h4
        · simp only [Option.some.injEq, Prod.mk.injEq] at h
          obtain ⟨_, rfl, rfl⟩ := h
          exact ⟨h3, sub_add h4 (hr v (by simp [Fm.vars])) hl⟩
      | app g bs => simp only [mguAux] at h; exact same h
      | quant q' vs' c' => simp only [mguAux] at h; exact same h

section
variable [DecidableEq F] {C : SearchCfg F}

theorem unifierOf_vars (P : Nat → Prop) {x t : Fm F} {u : Unif F} (h : unifierOf C x t = some (some u))
    (hx : ∀ v ∈ x.vars, P v.id) (ht : ∀ v ∈ t.vars, P v.id) :
    (∀ p ∈ u.left, P p.1 ∧ ∀ v ∈ p.2.vars, P v.id) ∧ ∀ p ∈ u.right, P p.1 ∧ ∀ v ∈ p.2.vars, P v.id := by
  have m : mgu C.mfuel x t = some (some u) →
      (∀ p ∈ u.left, P p.1 ∧ ∀ v ∈ p.2.vars, P v.id) ∧ ∀ p ∈ u.right, P p.1 ∧ ∀ v ∈ p.2.vars, P v.id := by
    intro h
    unfold mgu at h
    obtain ⟨⟨b, lp, rp⟩, h1, h2⟩ := Option.map_eq_some_iff.1 h
    cases b with
    | false => simp at h2
    | true =>
      simp only [if_true, Option.some.injEq] at h2
      subst h2
      exact mguAux_vars P _ _ _ _ _ _ _ _ h1 hx ht (fun _ h => nomatch h) (fun _ h => nomatch h)
  unfold unifierOf at h
  split at h
  · split at h
    · rename_i v
      simp only [Option.some.injEq] at h
      subst h
      refine ⟨?_, fun _ h => nomatch h⟩
      intro p hp
      simp only [Unif.oneVariable, List.mem_singleton] at hp
      subst hp
      exact ⟨hx v (by simp [Fm.vars]), ht⟩
    · exact m h
  · cases h

theorem unifGuard_vars (P : Nat → Prop) {x t : Fm F} {u : Unif F} {g : List (Fm F)} (h : unifGuard C x t u = some g)
    (hu : (∀ p ∈ u.left, P p.1 ∧ ∀ v ∈ p.2.vars, P v.id) ∧ ∀ p ∈ u.right, P p.1 ∧ ∀ v ∈ p.2.vars, P v.id)
    (hx : ∀ v ∈ x.vars, P v.id) (ht : ∀ v ∈ t.vars, P v.id) : ∀ φ ∈ g, ∀ v ∈ φ.vars, P v.id := by
  have e : (u.asEqualities).bind (eqFormulas C.L) = some g → ∀ φ ∈ g, ∀ v ∈ φ.vars, P v.id := by
    intro h φ hφ v hv
    obtain ⟨eqs, h1, h2⟩ := Option.bind_eq_some_iff.1 h
    obtain ⟨p, hp, e⟩ := (mapM_some h2).2 φ hφ
    obtain ⟨s, _, rfl⟩ := Option.map_eq_some_iff.1 e
    have hp' : P p.1 ∧ ∀ v ∈ p.2.vars, P v.id := by
      unfold Unif.asEqualities at h1
      split at h1
      · cases h1
      · simp only [Option.some.injEq] at h1
        subst h1
        rcases List.mem_append.1 hp with h | h
        · exact hu.1 p h
        · exact hu.2 p h
    simp only [Lang.meq, Fm.vars, varss, List.append_nil, List.mem_append, List.mem_singleton] at hv
    rcases hv with rfl | hv
    · exact hp'.1
    · exact hp'.2 v hv
  unfold unifGuard at h
  split at h
  · split at h
    · obtain ⟨a, ha, rfl⟩ := Option.map_eq_some_iff.1 h
      intro φ hφ v hv
      rw [List.mem_singleton] at hφ
      subst hφ
      unfold subFormula at ha
      split at ha
      · obtain ⟨f, _, rfl⟩ := Option.map_eq_some_iff.1 ha
        simp only [Fm.vars, varss, List.append_nil, List.mem_append] at hv
        rcases hv with hv | hv
        · exact hx v hv
        · exact ht v hv
      · cases ha; simp [Fm.vars, varss] at hv
    · exact e h
  · exact e h

/-- What is reported comes from a visited term. -/
theorem search_from {fuel : Nat} {x : Fm F} {fl : Flags} {roots : List (Fm F × List Var)} {res : List (Option (List Var × Fm F))}
    (h : search C fuel x fl roots = some res) {vs : List Var} {φ : Fm F} (hm : some (vs, φ) ∈ res) :
    ∃ t st, Elem C fl roots t st ∧ some (vs, φ) ∈ visitResult C x t st := by
  have h1 := (runPile_mem (searchIter C x) (some (vs, φ)) fuel _ res h).1 hm
  obtain ⟨c, hc, hr⟩ := h1
  rw [List.mem_reverse] at hc
  obtain ⟨⟨t, bv⟩, htb, rfl⟩ := List.mem_map.1 hc
  have he : Elem C fl roots t ⟨fl, bv, none⟩ := .root htb
  change Reach (searchIter C x) t ⟨fl, bv, none⟩ (some (vs, φ)) at hr
  generalize (⟨fl, bv, none⟩ : UState F) = st at he hr
  clear h hm hc htb
  generalize ho : some (vs, φ) = o at hr
  induction hr with
  | @res t st u hmem =>
    subst ho
    refine ⟨t, st, he, ?_⟩
    simp only [searchIter, searchVisit, List.mem_append] at hmem
    rcases hmem with (hmem | hmem) | hmem
    · split at hmem
      · simp at hmem
      · obtain ⟨p, _, e⟩ := List.mem_map.1 hmem; cases e
    · obtain ⟨p, hp, e⟩ := List.mem_map.1 hmem; cases e; exact hp
    · obtain ⟨p, _, e⟩ := List.mem_map.1 hmem; cases e
  | @step t st t' st' u hmem _ ih =>
    refine ih ?_ ho
    simp only [searchIter, searchVisit, List.mem_append] at hmem
    rcases hmem with (hmem | hmem) | hmem
    · split at hmem
      · simp at hmem
      · rename_i l hl
        obtain ⟨p, hp, e⟩ := List.mem_map.1 hmem
        cases e
        exact .unfold he hl hp
    · obtain ⟨p, _, e⟩ := List.mem_map.1 hmem; cases e
    · obtain ⟨p, hp, e⟩ := List.mem_map.1 hmem
      cases e
      exact .next he hp

/-- The variables of a result are those it lists and the outer ones. -/
theorem result_vars {outer : Nat → Prop} {x t : Fm F} {st : UState F} (hi : Inv outer t st)
    (hx : ∀ v ∈ x.vars, outer v.id) {vs : List Var} {φ : Fm F} (h : some (vs, φ) ∈ visitResult C x t st) :
    vs = st.bound ∧ VarsIn outer vs φ := by
  unfold visitResult at h
  split at h
  · simp at h
  · cases h
  · rename_i u hu
    split at h
    · simp at h
    · rename_i g hg
      simp only [List.mem_singleton, Option.some.injEq, Prod.mk.injEq] at h
      obtain ⟨rfl, rfl⟩ := h
      refine ⟨rfl, .app ?_⟩
      have hx' : ∀ v ∈ x.vars, v.id ∈ st.bound.map Var.id ∨ outer v.id := fun v hv => .inr (hx v hv)
      intro a ha
      rcases List.mem_append.1 ha with ha | ha
      · exact unifGuard_vars (fun i => i ∈ st.bound.map Var.id ∨ outer i) hg (unifierOf_vars (fun i => i ∈ st.bound.map Var.id ∨ outer i) hu hx' hi.vars) hx' hi.vars a ha
      · split at ha
        · simp only [Option.mem_toList] at ha
          exact hi.guard a ha
        · cases ha

/-- **C31 for the results of a search.** The formula made of the results of a search holds exactly when one
of them does, for some values of the variables it lists. `_partial`: the hypotheses on the protocol and the
roots are those of `C26_search_complete_partial`. -/
theorem C31_search_partial {cells : List (GCell F)} {M : Str F D} {roots : List (Fm F × List Var)} {outer : Nat → Prop}
    {x : Fm F} {fl : Flags} (hsem : Sem C.L M) (hp : ProtOK C.L C.steps cells) (hsh : Shrinks C.A)
    (hsub : ∀ r anc, C.G.ancestors r = some anc → ∀ d ∈ anc.cells, d ∈ cells)
    (hr : ∀ t bv, (t, bv) ∈ roots → NoQuant t ∧ VarsIn outer bv t ∧ (bv.map Var.id).Nodup)
    (hcl : NoClash C fl roots outer) (hx : ∀ v ∈ x.vars, outer v.id) (hdom : ∀ s, ∃ d, M.dom s d)
    {fuel : Nat} {res : List (Option (List Var × Fm F))} (hs : search C fuel x fl roots = some res) (ρ : Valn D) :
    M.truth (eval M ρ (intoExist C.L (res.filterMap id))) ↔
      ∃ vs φ, some (vs, φ) ∈ res ∧ quantVal M .ex vs (fun τ => M.truth (eval M τ φ)) ρ := by
  have hmem : ∀ p : List Var × Fm F, p ∈ res.filterMap id ↔ some p ∈ res := by
    intro p; simp
  have hall : ∀ p ∈ res.filterMap id, (p.1.map Var.id).Nodup ∧ (∀ v ∈ p.1, ¬ outer v.id) ∧ VarsIn outer p.1 p.2 := by
    rintro ⟨vs, φ⟩ hp'
    obtain ⟨t, st, he, hv⟩ := search_from hs ((hmem _).1 hp')
    have hi := inv_elem hp hsh hsub hr hcl he
    obtain ⟨rfl, h2⟩ := result_vars hi hx hv
    exact ⟨hi.nodup, hcl.bound _ _ he, h2⟩
  rw [C31_into_exist_partial C.L M hsem _ (fun p hp => (hall p hp).1) (fun p _ v _ => hdom v.sort)]
  · constructor
    · rintro ⟨⟨vs, φ⟩, h1, h2⟩
      exact ⟨vs, φ, (hmem _).1 h1, h2⟩
    · rintro ⟨vs, φ, h1, h2⟩
      exact ⟨(vs, φ), (hmem _).2 h1, h2⟩
  · intro p hp' q hq w hw hn v hv e
    rcases (hall p hp').2.2 v (free_sub_vars _ _ hv) with h | h
    · exact hn (e ▸ h)
    · exact (hall q hq).2.1 w hw (e ▸ h)

end

/-! ### Counterexamples -/

namespace ExEx
open SEx

def kd : Y → Kind Y := fun _ => .plain
abbrev M0 : Str Y (Tm Y) := freeStr (lang kd) ord rel
theorem sem0 : Sem (lang kd) M0 := freeStr_sem ord rel (lang_distinct kd)
def pf : Fm Y := .app .p []

/-- The second result does not list `x0`, which is one of its free variables. -/
def resC : List (List Var × Fm Y) := [([x0], .app .or []), ([], .app .eq [.var x0, pf])]

theorem intoExist_C : intoExist (lang kd) resC =
    .app .or [.quant .ex [x0] (.app .or [.app .or [], .app .eq [.var x0, pf]])] := by decide +kernel

/-- **C31, counterexample.** A variable that is free in a result that does not list it is captured: neither
result holds, but the formula made of them does. -/
theorem C31_capture_counterexample : ∃ ρ : Valn (Tm Y), M0.truth (eval M0 ρ (intoExist (lang kd) resC)) ∧
    ¬ ∃ p ∈ resC, quantVal M0 .ex p.1 (fun τ => M0.truth (eval M0 τ p.2)) ρ := by
  refine ⟨fun _ => .atom 0, ?_, ?_⟩
  · rw [intoExist_C]
    simp only [eval, evals]
    refine (sem0.or _).2 ⟨_, List.mem_singleton_self _, ?_⟩
    rw [M0.truth_ofProp]
    refine ⟨.node .p [], trivial, ?_⟩
    refine (sem0.or _).2 ⟨_, List.mem_cons_of_mem _ (List.mem_singleton_self _), ?_⟩
    refine (sem0.eq _ _).2 ?_
    simp only [pf, eval, evals]
    exact (freeStr_fn ord rel (builds kd .p rfl) []).symm
  · rintro ⟨p, hp, h⟩
    simp only [resC, List.mem_cons, List.not_mem_nil, or_false] at hp
    rcases hp with rfl | rfl
    · obtain ⟨d, _, h⟩ := h
      obtain ⟨d, hd, _⟩ := (sem0.or _).1 h
      cases hd
    · have := (sem0.eq _ _).1 h
      simp only [pf, eval, evals] at this
      rw [freeStr_fn ord rel (builds kd .p rfl) []] at this
      cases this

/-- The hypotheses of `C31_into_exist_partial` are met by results that share variables. -/
def resE : List (List Var × Fm Y) := [([x0], .app .eq [.var x0, pf]), ([x0, x1], .app .eq [.var x0, .var x1]),
  ([⟨0, .message⟩], .app .eq [.var ⟨0, .message⟩, pf])]

theorem intoExist_E : intoExist (lang kd) resE = .app .or [
    .quant .ex [x1] (.app .or [.quant .ex [x0] (.app .eq [.var x0, pf]), .quant .ex [x0] (.app .eq [.var x0, .var x1]),
      .quant .ex [⟨0, .message⟩] (.app .eq [.var ⟨0, .message⟩, pf])])] := by decide +kernel

example (ρ : Valn (Tm Y)) : M0.truth (eval M0 ρ (intoExist (lang kd) resE)) ↔
    ∃ p ∈ resE, quantVal M0 .ex p.1 (fun τ => M0.truth (eval M0 τ p.2)) ρ :=
  C31_into_exist_partial (lang kd) M0 sem0 resE (by decide) (fun _ _ _ _ => ⟨.atom 0, trivial⟩) (by decide +kernel) ρ

/-- The structure in which no sort has a value. -/
def Mempty : Str Y (Tm Y) := { M0 with dom := fun _ _ => False }

def resS : List (List Var × Fm Y) := [([x0], .app .or []), ([], .app .tru [])]

/-- **C31, counterexample.** With an empty sort the formula can be false although a result holds. -/
theorem C31_empty_sort_counterexample (ρ : Valn (Tm Y)) : ¬ Mempty.truth (eval Mempty ρ (intoExist (lang kd) resS)) ∧
    ∃ p ∈ resS, quantVal Mempty .ex p.1 (fun τ => Mempty.truth (eval Mempty τ p.2)) ρ := by
  have hs : Sem (lang kd) Mempty := ⟨sem0.eq, sem0.and, sem0.or, sem0.tru⟩
  constructor
  · rw [show intoExist (lang kd) resS = .app .or [.quant .ex [x0] (.app .or [.app .or [], .app .tru []])] from by
      decide +kernel]
    simp only [eval, evals]
    intro h
    obtain ⟨d, hd, h⟩ := (hs.or _).1 h
    rw [List.mem_singleton] at hd
    subst hd
    rw [Mempty.truth_ofProp] at h
    obtain ⟨d, hd, _⟩ := h
    exact hd
  · exact ⟨_, List.mem_cons_of_mem _ (List.mem_singleton_self _), hs.tru⟩

/-- The search of `SearchEx.lean` meets the hypotheses of `C31_search_partial`. -/
example : ∃ res, search cfgA 100 patA .all rootsA = some res ∧ res ≠ [] ∧
    (MA.truth (eval MA ρA (intoExist LA (res.filterMap id))) ↔
      ∃ vs φ, some (vs, φ) ∈ res ∧ quantVal MA .ex vs (fun τ => MA.truth (eval MA τ φ)) ρA) := by
  obtain ⟨res, h1, _, h3⟩ := searchA false
  refine ⟨res, h1, h3, ?_⟩
  refine C31_search_partial (C := cfgA) (cells := [cellC]) (outer := fun i => 10 ≤ i)
    (freeStr_sem ord rel (lang_distinct _)) protA (ufMain_shrinks _ _ _ _ _)
    (AncSpec.cells_sub (builtA.spec goodA)) ?_ ⟨?_, ?_⟩ ?_ (fun _ => ⟨.atom 0, trivial⟩) h1 ρA
  · intro t bv ht
    simp only [rootsA, List.mem_singleton, Prod.mk.injEq] at ht
    obtain ⟨rfl, rfl⟩ := ht
    refine ⟨.app ?_, ?_, by simp⟩
    · intro a ha; simp only [List.mem_singleton] at ha; subst ha
      exact .app (by intro a ha; simp only [List.mem_singleton] at ha; subst ha; exact .var _)
    · intro v hv
      simp only [tp, Fm.vars, Fm.varss, List.append_nil, List.mem_singleton] at hv
      subst hv; exact .inr (Nat.le_refl _)
  · intro t st he v hv
    have : ∀ p ∈ elemsA, ∀ v ∈ p.2.bound, v.id < 10 := by decide +kernel
    have := this _ (elem_of_closed (closedA _) he) v hv
    omega
  · intro f args st he hk
    have : ∀ p ∈ elemsA, (match p.1 with | .app f _ => decide (f ≠ .msg ∧ f ≠ .cond) | _ => true) = true := by decide +kernel
    have := this _ (elem_of_closed (closedA _) he)
    simp only [decide_eq_true_eq] at this
    cases f <;> simp [cfg, LA, lang, kindA] at hk this
  · intro v hv
    simp only [patA, mk, nk, Fm.vars, Fm.varss, List.append_nil, List.mem_singleton] at hv
    subst hv; simp

end ExEx

end Dep
end CV
