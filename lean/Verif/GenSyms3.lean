import Verif.GenSyms2
set_option linter.unusedSimpArgs false
set_option linter.unusedVariables false
set_option linter.unusedSectionVars false
/-
C92: the symbols of the file that is written, continued: the protocol, the declarations and the whole file.
-/
namespace CV
namespace Gsy
open Dep SmtM Ev Cry Gen
variable {F : Type} {S : F → Prop}

mutual
theorem ok_mapF {ι : Sym → F} : ∀ {φ : SFm}, Ok (fun s => S (ι s)) φ → Ok S (φ.mapF ι)
  | .var v, _ => ok_var v
  | .app f args, h => by
    rw [ok_app] at h
    rw [Fm.mapF, ok_app]
    exact ⟨h.1, ok_mapFs h.2⟩
  | .quant q vs b, h => ok_mapF (φ := b) h
theorem ok_mapFs {ι : Sym → F} : ∀ {l : List SFm}, (∀ a ∈ l, Ok (fun s => S (ι s)) a) → ∀ a ∈ Fm.mapFs ι l, Ok S a
  | [], _ => by simp [Fm.mapFs]
  | t :: l, h => by
    intro a ha
    rcases List.mem_cons.1 ha with rfl | ha
    · exact ok_mapF (h t List.mem_cons_self)
    · exact ok_mapFs (fun a ha => h a (List.mem_cons_of_mem _ ha)) a ha
end

/-- The symbols of a protocol. -/
structure PrOk (T : Sym → Prop) (P : Protocol) : Prop where
  bool : ∀ c, T (.bool c)
  happens : T .happens
  lt : T .lt
  leq : T .leq
  gt : T .gt
  pred : T .pred
  cond : T .cond
  msg : T .msg
  exec : T .exec
  evalMsg : T .evalMsg
  evalCond : T .evalCond
  steps : ∀ s ∈ P.steps, T (.step s.fid) ∧ Ok T s.condition ∧ Ok T s.message
  cells : ∀ c ∈ P.cells, T (.cell c.fid) ∧ ∀ a ∈ c.assigns, T (.step a.step.fid) ∧ (∀ t ∈ a.args, Ok T t) ∧ Ok T a.content
  orders : ∀ o ∈ P.ordering, Ok T o.guard ∧ match o.kind with | .lt a b => Ok T a ∧ Ok T b | .excl a b => Ok T a ∧ Ok T b

section
variable {T : Sym → Prop} {P : Protocol} (H : PrOk T P)
include H

theorem formula_ok {s : Step} (h : T (.step s.fid)) : Ok T s.formula := by
  unfold Step.formula
  rw [ok_app]
  refine ⟨h, fun a ha => ?_⟩
  obtain ⟨v, _, rfl⟩ := List.mem_map.1 ha
  exact ok_var v

theorem orderAxioms_ok {i : SFm} (h : Ok T i) : ∀ φ ∈ orderAxioms i ++ [gtAxiom], Ok T φ := by
  intro φ hφ
  simp only [orderAxioms, gtAxiom, List.cons_append, List.nil_append, List.mem_cons, List.not_mem_nil, or_false] at hφ
  rcases hφ with rfl | rfl | rfl | rfl | rfl | rfl | rfl | rfl | rfl | rfl | rfl | rfl | rfl <;>
    simp [SFm.meq, SFm.ands, SFm.ors, SFm.leq, SFm.lt, SFm.gt, SFm.mnot, SFm.happens, SFm.imp, SFm.pred, CV.st, H.bool, H.happens, H.lt, H.leq, H.gt, H.pred, h]

theorem stepDistinct_ok {s : Step} (hs : s ∈ P.steps) : Ok T (stepDistinct P.steps s) := by
  have hf := formula_ok H (H.steps s hs).1
  unfold stepDistinct
  dsimp only
  simp only [ok_forall, SFm.imp, SFm.happens, SFm.ands, ok_app, List.mem_cons, List.not_mem_nil, or_false, forall_eq_or_imp, forall_eq, H.bool, H.happens, hf,
    true_and]
  intro a ha
  obtain ⟨s2, hs2, rfl⟩ := List.mem_map.1 ha
  have h2 : Ok T (.app (.step s2.fid) ((s2.vars.map (·.shift (maxVar (s.vars.map Var.id)))).map .var)) := by
    rw [ok_app]
    refine ⟨(H.steps s2 hs2).1, fun a ha => ?_⟩
    obtain ⟨v, _, rfl⟩ := List.mem_map.1 ha
    exact ok_var v
  split
  · simp only [ok_forall, SFm.imp, SFm.meq, SFm.ands, ok_app (f := Sym.bool _), List.mem_cons, List.not_mem_nil, or_false, forall_eq_or_imp, forall_eq, H.bool, hf, h2,
      true_and]
    intro b hb
    obtain ⟨p, _, rfl⟩ := List.mem_map.1 hb
    simp [SFm.meq, H.bool]
  · simp only [ok_forall, SFm.mnot, SFm.meq, ok_app (f := Sym.bool _), List.mem_cons, List.not_mem_nil, or_false, forall_eq_or_imp, forall_eq, H.bool, hf, h2, true_and,
      and_true]

theorem stepExhaustive_ok : Ok T (stepExhaustive P.steps) := by
  unfold stepExhaustive
  dsimp only
  simp only [ok_forall, SFm.imp, SFm.happens, SFm.ors, ok_app, List.mem_cons, List.not_mem_nil, or_false, forall_eq_or_imp, forall_eq, H.bool, H.happens, CV.st, ok_var,
    true_and]
  intro a ha
  obtain ⟨s, hs, rfl⟩ := List.mem_map.1 ha
  have hf := formula_ok H (H.steps s hs).1
  simp [SFm.meq, H.bool, hf]

theorem orderingAxiom_ok {o : Ordering} (ho : o ∈ P.ordering) : Ok T (orderingAxiom o) := by
  obtain ⟨h1, h2⟩ := H.orders o ho
  unfold orderingAxiom
  split <;> rename_i e <;> rw [e] at h2 <;> simp [SFm.imp, SFm.happens, SFm.leq, SFm.mnot, SFm.ands, H.bool, H.happens, H.leq, h1, h2.1, h2.2]

theorem unfolding_ok {r d : Bool} {l : List SFm} (h : unfoldingGenerate r d P = some l) : ∀ φ ∈ l, Ok T φ := by
  obtain ⟨i, hi, rfl⟩ := Option.map_eq_some_iff.1 h
  have hi : i ∈ P.steps := List.mem_of_mem_head? hi
  have hfi := formula_ok H (H.steps i hi).1
  intro φ hφ
  simp only [List.mem_append, List.mem_singleton] at hφ
  rcases hφ with ((hφ | rfl) | hφ) | hφ
  · obtain ⟨s, hs, rfl⟩ := List.mem_map.1 hφ
    obtain ⟨k1, k2, k3⟩ := H.steps s hs
    have hf := formula_ok H k1
    simp [SFm.imp, SFm.happens, SFm.ands, SFm.meq, SFm.evalC, SFm.evalM, H.bool, H.happens, H.evalCond, H.evalMsg, H.cond, H.msg, hf, k2, k3]
  · simp [SFm.evalC, H.evalCond, H.exec, hfi]
  · split at hφ
    · obtain ⟨s, hs, rfl⟩ := List.mem_map.1 hφ
      have hf := formula_ok H (H.steps s (List.mem_of_mem_tail hs)).1
      simp [SFm.imp, SFm.happens, SFm.ands, SFm.meq, SFm.evalC, SFm.pred, H.bool, H.happens, H.evalCond, H.cond, H.exec, H.pred, hf]
    · cases hφ
  · split at hφ
    · rw [List.mem_singleton.1 hφ]
      simp [execDirect, SFm.imp, SFm.happens, SFm.leq, SFm.meq, SFm.evalC, CV.st, H.bool, H.happens, H.evalCond, H.cond, H.exec, H.leq]
    · cases hφ

theorem cellGenerate_ok : ∀ φ ∈ cellGenerate P, Ok T φ := by
  intro φ hφ
  obtain ⟨c, hc, hφ⟩ := List.mem_flatMap.1 hφ
  obtain ⟨k1, k2⟩ := H.cells c hc
  have hv : ∀ vs : List Var, ∀ a ∈ vs.map (Fm.var (F := Sym)), Ok T a := by
    intro vs a ha
    obtain ⟨v, _, rfl⟩ := List.mem_map.1 ha
    exact ok_var v
  have hcall : ∀ vs : List Var, Ok T (.app (.cell c.fid) (vs.map .var)) := fun vs => ok_app.2 ⟨k1, hv vs⟩
  have hprev : ∀ (vs : List Var) (v : Var), Ok T (.app (.cell c.fid) (vs.map .var ++ [SFm.pred (.var v)])) := by
    intro vs v
    rw [ok_app]
    refine ⟨k1, fun a ha => ?_⟩
    rcases List.mem_append.1 ha with ha | ha
    · exact hv vs a ha
    · rw [List.mem_singleton.1 ha]
      simp [SFm.pred, H.pred]
  have hmatch : ∀ (v : Var) (vs : List Var), ∀ a ∈ c.assigns, Ok T (assignMatch v vs a) := by
    intro v vs a ha
    obtain ⟨q1, q2, q3⟩ := k2 a ha
    unfold assignMatch SFm.ands
    rw [ok_app]
    refine ⟨H.bool _, fun b hb => ?_⟩
    rcases List.mem_append.1 hb with hb | hb
    · obtain ⟨p, hp, rfl⟩ := List.mem_map.1 hb
      have := q2 _ (List.of_mem_zip (a := p.1) (b := p.2) hp).2
      simp [SFm.meq, H.bool, this]
    · rw [List.mem_singleton.1 hb]
      simp [SFm.meq, H.bool, formula_ok H q1]
  unfold cellAxioms at hφ
  dsimp only at hφ
  rcases List.mem_cons.1 hφ with rfl | hφ
  · have h1 : Ok T (SFm.ands (c.assigns.map (fun a => Fm.mkForall (a.step.vars ++ a.fresh)
        (SFm.mnot (assignMatch ⟨P.maxVar, .step⟩ (sortsToVariables (P.maxVar + 1) c.args) a))))) := by
      unfold SFm.ands
      rw [ok_app]
      refine ⟨H.bool _, fun b hb => ?_⟩
      obtain ⟨a, ha, rfl⟩ := List.mem_map.1 hb
      simp [SFm.mnot, H.bool, hmatch _ _ a ha]
    rw [ok_forall]
    simp only [SFm.imp, SFm.meq, SFm.evalM, ok_app (f := Sym.bool _), ok_app (f := Sym.evalMsg), List.mem_cons, List.not_mem_nil, or_false, forall_eq_or_imp, forall_eq,
      H.bool, H.evalMsg, h1, hcall, hprev, true_and, and_true]
  · obtain ⟨ψ, hψ, rfl⟩ := List.mem_map.1 hφ
    obtain ⟨a, ha, rfl⟩ := List.mem_map.1 hψ
    rw [ok_forall, ok_forall]
    simp only [SFm.imp, SFm.meq, ok_app (f := Sym.bool _), List.mem_cons, List.not_mem_nil, or_false, forall_eq_or_imp, forall_eq, H.bool, hcall, hmatch _ _ a ha,
      (k2 a ha).2.2, true_and, and_true]
end

/-! ### The file -/

variable [DecidableEq F]

/-- The symbols of an assumption. -/
def AssOk (S : F → Prop) : Ass F → Prop
  | .ufCma U split => UOk S U ∧ S split
  | .eufCma U split => UeOk S U ∧ S split
  | .intCtxt X => XOk S X
  | .nonce sym => SubOk S sym
  | _ => True

/-- The set has the symbols of the problem and is closed under what is made of them. -/
structure BOk (S : F → Prop) (P : Prob F) : Prop where
  K : KOk S P.K
  prot : PrOk (fun s => S (P.ι s)) P.P
  dest : ∀ f ∈ P.K.E.functions, ∀ i, S (P.dest f i)
  crypto : ∀ a ∈ P.crypto, AssOk S a
  assertions : ∀ φ ∈ P.assertions, Ok S φ
  query : Ok S P.query

variable {P : Prob F} (H : BOk S P)
include H

theorem optO_ok {b : Bool} {o : Option (List (Fm F))} (h : Evs S o) : Evs S (optO b o) := by
  unfold optO
  split
  · exact h
  · intro l e; cases e; intro t ht; cases ht

theorem ass_ok {a : Ass F} (ha : AssOk S a) {l : List (Ax F)} (h : P.ass a = some l) : ∀ x ∈ l, AxOk S x := by
  intro x hx
  cases a with
  | ufCma U split =>
    obtain ⟨hU, hs⟩ := ha
    simp only [Prob.ass, Prob.ufCma] at h
    split at h
    · next a b c d e e1 e2 e3 e4 e5 =>
      cases h
      have hk : SbOk S (U.key P.K) := ⟨aux_ufKey _ _ _, hU.key⟩
      have hm : SbOk S (U.main P.K) := ⟨aux_ufMain _ _ _ _ _, hU.main⟩
      rcases List.mem_append.1 hx with hx | hx
      · rcases List.mem_cons.1 hx with rfl | hx
        · exact axOk_comment
        · obtain ⟨t, ht, rfl⟩ := List.mem_map.1 hx
          simp only [List.cons_append, List.mem_cons, List.mem_append] at ht
          rcases ht with rfl | (ht | ht) | ht
          · exact ufBase_ok H.K hU _ e1
          · exact optO_ok H (ufPre_ok H.K hU) _ e2 t ht
          · exact optO_ok H (defineSubterms_ok H.K hk hm) _ e3 t ht
          · exact optO_ok H (evs_single (splitAx_ok H.K hk hs)) _ e4 t ht
      · obtain ⟨t, ht, rfl⟩ := List.mem_map.1 hx
        exact optO_ok H (evs_single (generalAx_ok H.K hm.2 hk.2 hU.mac hU.verify hs fun t h => h)) _ e5 t ht
    · cases h
  | eufCma U split =>
    obtain ⟨hU, hs⟩ := ha
    simp only [Prob.ass, Prob.eufCma] at h
    split at h
    · next b c d e e2 e3 e4 e5 =>
      cases h
      have hk : SbOk S (U.key P.K) := ⟨aux_eufKey _ _ _, hU.key⟩
      have hm : SbOk S U.main := ⟨aux_default _, hU.main⟩
      rcases List.mem_append.1 hx with hx | hx
      · rcases List.mem_cons.1 hx with rfl | hx
        · exact axOk_comment
        · obtain ⟨t, ht, rfl⟩ := List.mem_map.1 hx
          simp only [List.mem_append] at ht
          rcases ht with (ht | ht) | ht
          · exact optO_ok H (eufPre_ok H.K hU) _ e2 t ht
          · exact optO_ok H (defineSubterms_ok H.K hk hm) _ e3 t ht
          · exact optO_ok H (evs_single (splitAx_ok H.K hk hs)) _ e4 t ht
      · obtain ⟨t, ht, rfl⟩ := List.mem_map.1 hx
        exact optO_ok H (evs_single (generalAx_ok H.K hm.2 hk.2 hU.sign hU.verify hs fun t h => by simp [hU.pk, h])) _ e5 t ht
    · cases h
  | intCtxt X =>
    have hX : XOk S X := ha
    simp only [Prob.ass, Prob.intCtxt] at h
    split at h
    · next b c e a e2 e3 e4 e5 =>
      cases h
      rcases List.mem_append.1 hx with hx | hx
      · rcases List.mem_append.1 hx with hx | hx
        · rcases List.mem_cons.1 hx with rfl | hx
          · exact axOk_comment
          · obtain ⟨t, ht, rfl⟩ := List.mem_map.1 hx
            rcases List.mem_append.1 ht with ht | ht
            · exact optO_ok H (ctxPre_ok H.K hX) _ e2 t ht
            · exact optO_ok H (ctxDefine_ok H.K hX) _ e3 t ht
        · obtain ⟨t, ht, rfl⟩ := List.mem_map.1 hx
          exact optO_ok H (evs_single (ctxGeneral_ok H.K hX)) _ e4 t ht
      · rw [List.mem_singleton.1 hx]
        exact ctxBase_ok H.K hX _ e5
    · cases h
  | nonce sym =>
    obtain ⟨r, hr, rfl⟩ := Option.map_eq_some_iff.1 h
    obtain ⟨k1, k2⟩ := nonce_ok H.K (show SubOk S sym from ha) hr
    rcases List.mem_append.1 hx with hx | hx
    · rcases List.mem_cons.1 hx with rfl | hx
      · exact axOk_comment
      · obtain ⟨t, ht, rfl⟩ := List.mem_map.1 hx
        exact k1 t ht
    · rw [List.mem_singleton.1 hx]; exact k2
  | cell =>
    cases h
    rcases List.mem_cons.1 hx with rfl | hx
    · exact axOk_comment
    · obtain ⟨t, ht, rfl⟩ := List.mem_map.1 hx
      exact ok_mapF (cellGenerate_ok H.prot t ht)
  | unfolding r d =>
    obtain ⟨l, hl, rfl⟩ := Option.map_eq_some_iff.1 h
    rcases List.mem_cons.1 hx with rfl | hx
    · exact axOk_comment
    · obtain ⟨t, ht, rfl⟩ := List.mem_map.1 hx
      exact ok_mapF (unfolding_ok H.prot hl t ht)

theorem order_ok {l : List (Ax F)} (h : P.order = some l) : ∀ x ∈ l, AxOk S x := by
  obtain ⟨i, hi, rfl⟩ := Option.map_eq_some_iff.1 h
  have hi : i ∈ P.P.steps := List.mem_of_mem_head? hi
  intro x hx
  rcases List.mem_append.1 hx with hx | hx
  · rcases List.mem_cons.1 hx with rfl | hx
    · exact axOk_comment
    · obtain ⟨t, ht, rfl⟩ := List.mem_map.1 hx
      exact ok_mapF (orderAxioms_ok H.prot (formula_ok H.prot (H.prot.steps i hi).1) t ht)
  · obtain ⟨t, ht, rfl⟩ := List.mem_map.1 hx
    refine ok_mapF (φ := t) ?_
    simp only [List.mem_append, List.mem_singleton, List.mem_map] at ht
    rcases ht with (⟨s, hs, rfl⟩ | rfl) | ⟨o, ho, rfl⟩
    · exact stepDistinct_ok H.prot hs
    · exact stepExhaustive_ok H.prot
    · exact orderingAxiom_ok H.prot ho

theorem axioms_ok {l : List (Ax F)} (h : P.axioms = some l) : ∀ x ∈ l, AxOk S x := by
  unfold Prob.axioms at h
  split at h
  swap
  · cases h
  next o e c a q h1 h2 h3 h4 h5 =>
  cases h
  intro x hx
  simp only [List.mem_append, List.mem_cons, List.not_mem_nil, or_false] at hx
  rcases hx with (((((hx | hx) | rfl) | hx) | rfl) | hx) | rfl | rfl
  · exact order_ok H h1 x hx
  · exact generate_ok H.K.E h2 x hx
  · exact axOk_comment
  · obtain ⟨a, ha, s, hs, hx⟩ := flatO_mem h3 hx
    exact ass_ok H (H.crypto a ha) hs x hx
  · exact axOk_comment
  · obtain ⟨t, ht, rfl⟩ := List.mem_map.1 hx
    obtain ⟨b, hb, e⟩ := Ev.mapO_mem h4 t ht
    exact before_ok H.K.E _ e (H.assertions b hb)
  · exact axOk_comment
  · exact before_ok H.K.E _ h5 H.query

def DOk (S : F → Prop) (d : SmtM.Decl F) : Prop := ∀ f ∈ declSyms d, S f

theorem subDecls_ok {s : Cry.Sub F} (hs : SubOk S s.sym) {ign : List F} : ∀ d ∈ P.subDecls s ign, DOk S d := by
  intro d hd
  unfold Prob.subDecls at hd
  split at hd
  · split at hd
    · obtain ⟨f, hf, rfl⟩ := Option.map_eq_some_iff.1 (Option.mem_toList.1 hd)
      intro g hg
      rcases List.mem_cons.1 hg with rfl | hg
      · exact hs _ _ hf
      · exact H.K.E.functions g (List.mem_filter.1 hg).1
    · obtain ⟨f, hf, rfl⟩ := List.mem_map.1 hd
      obtain ⟨x, _, hx⟩ := List.mem_filterMap.1 hf
      intro g hg
      rw [List.mem_singleton.1 hg]
      exact hs _ _ hx
  · cases hd

theorem free_ok {f : F} (h : S f) : DOk S (.free f) := fun g hg => by rw [List.mem_singleton.1 hg]; exact h

theorem assDecls_ok {a : Ass F} (ha : AssOk S a) : ∀ d ∈ P.assDecls a, DOk S d := by
  intro d hd
  cases a with
  | ufCma U split =>
    simp only [Prob.assDecls] at hd
    split at hd
    · simp only [List.mem_append, List.mem_singleton] at hd
      rcases hd with (hd | hd) | rfl
      · exact subDecls_ok H ha.1.key d hd
      · exact subDecls_ok H ha.1.main d hd
      · exact free_ok H ha.2
    · cases hd
  | eufCma U split =>
    simp only [Prob.assDecls] at hd
    split at hd
    · simp only [List.mem_append, List.mem_singleton] at hd
      rcases hd with (hd | hd) | rfl
      · exact subDecls_ok H ha.1.key d hd
      · exact subDecls_ok H ha.1.main d hd
      · exact free_ok H ha.2
    · cases hd
  | intCtxt X =>
    have hX : XOk S X := ha
    simp only [Prob.assDecls] at hd
    split at hd
    · simp only [List.mem_append] at hd
      rcases hd with (hd | hd) | hd
      · exact subDecls_ok H hX.main d hd
      · exact subDecls_ok H hX.key d hd
      · exact subDecls_ok H hX.rand d hd
    · cases hd
  | nonce sym => exact subDecls_ok H (show SubOk S sym from ha) d hd
  | cell => cases hd
  | unfolding => cases hd

theorem evalDecls_ok : ∀ d ∈ evalDecls P.K.E, DOk S d := by
  intro d hd
  simp only [evalDecls, List.mem_append] at hd
  have hrest : ∀ d : SmtM.Decl F, declSyms d = [] → DOk S d := fun d e f hf => by rw [e] at hf; cases hf
  rcases hd with (((hd | hd) | hd) | hd) | hd
  · obtain ⟨p, _, rfl⟩ := List.mem_map.1 hd
    split <;> exact hrest _ rfl
  · split at hd
    · cases hd
    · rw [List.mem_singleton.1 hd]; exact hrest _ rfl
  · obtain ⟨p, hp, rfl⟩ := List.mem_map.1 hd
    exact free_ok H (H.K.E.evs p hp)
  · split at hd
    · rcases List.mem_append.1 hd with hd | hd
      · obtain ⟨f, hf, rfl⟩ := List.mem_map.1 hd
        obtain ⟨g, hg, e⟩ := List.mem_filterMap.1 hf
        have hk := H.K.E.kind g (H.K.E.functions g hg)
        unfold evalFun at e
        split at e
        · next e' => rw [e'] at hk; cases e; exact free_ok H hk
        · cases e
      · obtain ⟨p, hp, rfl⟩ := List.mem_map.1 hd
        obtain ⟨h1, h2⟩ := List.mem_filter.1 hp
        obtain ⟨s, hs, e⟩ := List.mem_filterMap.1 h1
        obtain ⟨s', hs', rfl⟩ := Option.map_eq_some_iff.1 e
        exact free_ok H (H.K.E.rewrite s hs s' hs' (by simpa using h2))
    · cases hd
  · obtain ⟨f, hf, rfl⟩ := List.mem_map.1 hd
    obtain ⟨g, hg, hf⟩ := List.mem_flatMap.1 hf
    exact free_ok H (H.K.E.skolem g hg f hf)

theorem foldCons_mem {α : Type} : ∀ (l : List (Srt × α)) (m : List (Srt × List α)) (c : α), c ∈ (l.foldl (fun m c => addCons c.1 c.2 m) m).flatMap (·.2) →
    c ∈ m.flatMap (·.2) ∨ c ∈ l.map (·.2)
  | [], m, c, h => .inl h
  | p :: l, m, c, h => by
    rcases foldCons_mem l _ c h with h | h
    · rcases List.mem_cons.1 ((addCons_perm p.1 p.2 m).mem_iff.1 h) with rfl | h
      · exact .inr List.mem_cons_self
      · exact .inl h
    · exact .inr (List.mem_cons_of_mem _ h)

theorem ownDecls_ok {l : List (SmtM.Decl F)} (h : P.ownDecls = some l) : ∀ d ∈ l, DOk S d := by
  obtain ⟨ds, hds, rfl⟩ := Option.map_eq_some_iff.1 h
  have hdecl : ∀ f ∈ P.declared, f ∈ P.K.E.functions := fun f hf => (List.mem_filter.1 hf).1
  intro d hd
  simp only [List.mem_append, List.mem_singleton] at hd
  rcases hd with (hd | hd) | rfl
  · unfold Prob.sortDecls at hd
    obtain ⟨s, _, rfl⟩ := List.mem_map.1 hd
    intro f hf; cases hf
  · obtain ⟨f, hf, rfl⟩ := List.mem_map.1 hd
    exact free_ok H (H.K.E.functions f (hdecl f (List.mem_filter.1 hf).1))
  · obtain ⟨cs, hcs, rfl⟩ := Option.map_eq_some_iff.1 hds
    intro f hf
    simp only [declSyms] at hf
    obtain ⟨p, hp, hf⟩ := List.mem_flatMap.1 hf
    obtain ⟨c, hc, hf⟩ := List.mem_flatMap.1 hf
    rcases foldCons_mem H cs [] c (List.mem_flatMap.2 ⟨p, hp, hc⟩) with hm | hm
    · cases hm
    · obtain ⟨q, hq, rfl⟩ := List.mem_map.1 hm
      obtain ⟨g, hg, e⟩ := Ev.mapO_mem hcs q hq
      have hgf := hdecl g (List.mem_filter.1 hg).1
      unfold Prob.cons at e
      obtain ⟨s, _, e⟩ := Option.bind_eq_some_iff.1 e
      obtain ⟨ss, _, rfl⟩ := Option.map_eq_some_iff.1 e
      rcases List.mem_cons.1 hf with rfl | hf
      · exact H.K.E.functions _ hgf
      · obtain ⟨i, _, rfl⟩ := List.mem_map.1 hf
        exact H.dest g hgf i

/-- All the symbols of the file are in the set. -/
theorem file_syms {g : GenFile F} (h : P.file = some g) : ∀ f ∈ g.syms, S f := by
  unfold Prob.file at h
  split at h
  swap
  · cases h
  next a d h1 h2 =>
  cases h
  intro f hf
  rcases List.mem_append.1 hf with hf | hf
  · obtain ⟨x, hx, hfx⟩ := List.mem_flatMap.1 hf
    unfold sortDecl at hx
    obtain ⟨r, _, hx⟩ := List.mem_flatMap.1 hx
    have hx := (List.mem_filter.1 hx).1
    obtain ⟨l, hl, rfl⟩ := Option.map_eq_some_iff.1 h2
    simp only [List.mem_append, List.mem_singleton] at hx
    rcases hx with ((hx | rfl) | hx) | hx
    · exact ownDecls_ok H hl x hx f hfx
    · cases hfx
    · exact evalDecls_ok H x hx f hfx
    · obtain ⟨a, ha, hx⟩ := List.mem_flatMap.1 hx
      exact assDecls_ok H (H.crypto a ha) x hx f hfx
  · obtain ⟨x, hx, hf⟩ := List.mem_flatMap.1 hf
    exact axioms_ok H h1 x hx f hf

end Gsy
end CV
