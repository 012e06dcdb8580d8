import Verif.GenerateDecls
import Verif.OrderAdequacy
import Verif.CellProps
import Verif.EvalPush
import Verif.CryptoProps
import Verif.IntCtxtProps
import Verif.NonceEvProps
import Verif.SmtFileProps
import Verif.ExecProps
set_option linter.unusedSimpArgs false
set_option linter.unusedVariables false
set_option linter.unusedSectionVars false
/-
C71: the assertions of the problem file. In every structure that is an execution of the protocol and in which the
assumptions hold, all of them are true; so if the file has no model, the query is true in every such structure.
-/
namespace CV

/-- SPECIFICATION. A structure for the symbols `F`, read as one for the symbols `G`. -/
def Str.comap {F G D : Type} (M : Str F D) (ι : G → F) : Str G D where
  fn g := M.fn (ι g)
  truth := M.truth
  ofProp := M.ofProp
  truth_ofProp := M.truth_ofProp
  dom := M.dom

section
variable {F G D : Type} (M : Str F D) (ι : G → F)

theorem quantVal_comap (q : QKind) (P : Valn D → Prop) : ∀ (vs : List Var) (ρ : Valn D),
    quantVal (M.comap ι) q vs P ρ ↔ quantVal M q vs P ρ := by
  intro vs
  cases q with
  | all =>
    induction vs with
    | nil => intro ρ; exact Iff.rfl
    | cons v vs ih => intro ρ; exact forall_congr' fun d => imp_congr Iff.rfl (ih _)
  | ex =>
    induction vs with
    | nil => intro ρ; exact Iff.rfl
    | cons v vs ih => intro ρ; exact exists_congr fun d => and_congr Iff.rfl (ih _)

mutual
/-- Renaming the symbols is reading the structure differently. -/
theorem eval_mapF : ∀ (φ : Fm G) (ρ : Valn D), Fm.eval M ρ (φ.mapF ι) = Fm.eval (M.comap ι) ρ φ
  | .var v, ρ => rfl
  | .app f args, ρ => by
    simp only [Fm.mapF, Fm.eval, evals_mapF args ρ]
    rfl
  | .quant q vs b, ρ => by
    simp only [Fm.mapF, Fm.eval, eval_mapF b]
    show M.ofProp _ = M.ofProp _
    congr 1
    exact propext (quantVal_comap M ι q _ vs ρ).symm
theorem evals_mapF : ∀ (l : List (Fm G)) (ρ : Valn D), Fm.evals M ρ (Fm.mapFs ι l) = Fm.evals (M.comap ι) ρ l
  | [], ρ => rfl
  | a :: l, ρ => by simp only [Fm.mapFs, Fm.evals, eval_mapF a ρ, evals_mapF l ρ]
end

theorem holds_mapF (φ : Fm G) (ρ : Valn D) : M.truth (Fm.eval M ρ (φ.mapF ι)) ↔ Fm.holds (M.comap ι) ρ φ := by
  rw [eval_mapF]; rfl

end

namespace Gen
open Dep SmtM SmtS Ev Cry Fm
variable {F D : Type}

/-! ## Specification -/

/-- SPECIFICATION. The structure is an execution of the protocol: the logical symbols mean what they should, the time
points are those of a run that obeys the declared orders, evaluation is a homomorphism (and the identity in the evaluated
realm), and the two symbols that the axioms force to have another meaning than the natural one have that meaning (`gt`). -/
structure Execution (P : Prob F) (M : Str F D) (points : List D) (undef first : D) : Prop where
  logic : Logic (M.comap P.ι)
  run : IsRun (M.comap P.ι) P.P points undef first
  wf : ∀ s ∈ P.P.steps, s.WF
  nodup : (P.P.steps.map Step.fid).Nodup
  orders : ∀ o ∈ P.P.ordering, ∀ ρ, holds (M.comap P.ι) ρ (orderingAxiom o)
  gt : ∀ ρ, holds (M.comap P.ι) ρ gtAxiom
  ok : P.K.E.OK
  logical : Logical P.K.E M
  homo : Homo P.K.E M
  skolem : SkolemOK P.K.E M
  ident : P.K.E.symbolic = false → ∀ s e, (s, e) ∈ P.K.E.evs → ∀ d, M.dom s d → M.fn e [d] = d
  legacy : P.K.E.legacy = false

/-- SPECIFICATION. The macros mean what the steps say. `exec` is true at a point when the conditions of all points until
it are, except that of the first; when the direct definition is used, it is true when the condition of the point is, as
this definition says. -/
structure UnfoldOK (P : Prob F) (N : Str Sym D) (points : List D) (r d : Bool) : Prop where
  prop : EvalIsProp N
  macros : ∀ ρ : Valn D, ∀ s ∈ P.P.steps, ∀ as, InDoms N s.vars as → N.fn (.step s.fid) as ∈ points →
    N.fn .evalCond [N.fn .cond [N.fn (.step s.fid) as]] = N.fn .evalCond [eval N (ρ.sets s.vars as) s.condition] ∧
    N.fn .evalMsg [N.fn .msg [N.fn (.step s.fid) as]] = N.fn .evalMsg [eval N (ρ.sets s.vars as) s.message]
  init : ∀ t, points[0]? = some t → ExecTrue N t
  exec : r = true → ∀ i t, points[i]? = some t → (ExecTrue N t ↔ ∀ j e, 1 ≤ j → j ≤ i → points[j]? = some e → CondTrue N e)
  direct : d = true ∨ r = false → ∀ t ∈ points, (ExecTrue N t ↔ CondTrue N t)

/-- SPECIFICATION. A cell contains what is assigned to it, and otherwise what it contained before. -/
structure CellOK (P : Prob F) (N : Str Sym D) (c : Cell) : Prop where
  wf : CellWF P.P.maxVar c
  write : ∀ ρ ks d, CellIdx N c ks → N.dom .step d → ∀ v, Writes N c ρ d ks v → N.fn (.cell c.fid) (ks ++ [d]) = v
  keep : ∀ ρ ks d, CellIdx N c ks → N.dom .step d → (∀ v, ¬ Writes N c ρ d ks v) →
    N.fn .evalMsg [N.fn (.cell c.fid) (ks ++ [d])] = N.fn .evalMsg [N.fn (.cell c.fid) (ks ++ [N.fn .pred [d]])]

/-- SPECIFICATION. Nonces cannot be guessed: the hypotheses of `C46_nonce_evaluated_partial`, all macros and quantifier
symbols being as `SpecialOK` says. -/
structure NonceOK [DecidableEq F] (P : Prob F) (M : Str F D) (sym : Option Srt → Option F) (ta : F → Prop) (gr : Srt → Prop) :
    Prop where
  setting : Setting P.K M
  bodies : Bodies P.K (Comprised P.K ta gr) gr
  ends : Ends P.K M
  reads : ReadsEv P.K P.I M ta gr sym
  info : InfoEv P.K P.I ta gr
  hidden : Unguessable P.K M ta gr
  special : ∀ f ∈ P.K.E.functions, P.I.dflt f = false → SpecialOK P.K P.I gr (nonceSub sym) .all true f

/-- SPECIFICATION. MACs are correct and unforgeable: the hypotheses of `C61_mac_correct` and `C61_mac_partial` (or of
`C61_hmac_partial`). -/
structure MacOK [DecidableEq F] (P : Prob F) (M : Str F D) (U : Uf F) (gr : Srt → Prop) : Prop where
  setting : Setting P.K M
  evaluated : P.K.E.symbolic = false
  distinct : U.mac ≠ U.verify ∧ P.K.E.L.eq ≠ U.verify ∧ P.K.eqTa ≠ U.verify
  mac : P.K.E.L.out U.mac = some .message
  verify : P.K.E.L.out U.verify = some .condition
  correct : ∀ m k, M.dom .message m → M.dom .message k →
    M.truth (P.K.E.val M .condition (M.fn U.verify [M.fn U.mac [m, k], m, k]))
  unforgeable : Unforgeable P.K.E.L P.K.steps P.K.cells M (KeyPart U.mac U.verify P.K.cast)
    (if U.hmac then HmacSeen P.K.E.L.eq P.K.eqTa U.mac U.verify else MainPart U.mac U.verify) gr U.mac P.K.cast
    (U.accepts P.K M) (fun a b => P.K.E.val M .message a = P.K.E.val M .message b)
  cands : P.instances = true → ∀ cs, U.candidates P.K = some cs → ∀ c ∈ cs, CandOK P.K M (U.main P.K) (U.key P.K) gr U.mac c ∧
    (U.hmac = true → P.K.E.L.sortOf c.signature = some .message)

/-- SPECIFICATION. Signatures are unforgeable: the hypotheses of `C61_signature_partial`. -/
structure SignOK [DecidableEq F] (P : Prob F) (M : Str F D) (U : Euf F) (gr : Srt → Prop) : Prop where
  setting : Setting P.K M
  evaluated : P.K.E.symbolic = false
  distinct : U.sign ≠ U.pk
  sign : P.K.E.L.out U.sign = some .message
  verify : P.K.E.L.out U.verify = some .condition
  unforgeable : Unforgeable P.K.E.L P.K.steps P.K.cells M (SignPart U.sign U.pk P.K.cast) ArgOf gr U.sign P.K.cast
    (U.accepts P.K M) (fun a b => P.K.E.val M .message a = P.K.E.val M .message b)
  cands : P.instances = true → ∀ cs, U.candidates P.K = some cs → ∀ c ∈ cs, CandOK P.K M U.main (U.key P.K) gr U.sign c

/-- SPECIFICATION. Encryption is correct and its ciphertexts integral: the hypotheses of `C64_correct` and
`C64_instance_partial`. -/
structure CtxtOK [DecidableEq F] (P : Prob F) (M : Str F D) (X : Ctx F) (gr : Srt → Prop) : Prop where
  setting : Setting P.K M
  evaluated : P.K.E.symbolic = false
  distinct : X.enc ≠ X.dec
  enc : P.K.E.L.out X.enc = some .message
  dec : P.K.E.L.out X.dec = some .message
  fail : P.K.E.L.out X.fail = some .message
  correct : ∀ m c k, M.dom .message m → M.dom .message c → M.dom .message k →
    P.K.E.val M .message m = P.K.E.val M .message (M.fn X.dec [M.fn X.enc [m, c, k], k])
  integrity : Integrity P.K.E.L P.K.steps P.K.cells M gr X.enc X.dec P.K.cast (X.accepts P.K M)
    (fun a b => P.K.E.val M .message a = P.K.E.val M .message b)
  cands : P.instances = true → ∀ cs, X.candidates P.K = some cs → ∀ c ∈ cs, DecOK X P.K M gr c
  rands : P.instances = true → ∀ cs, X.candidates P.K = some cs → ∀ es, X.encs P.K = some (es, true) → ∀ c ∈ cs, ∀ sc,
    P.K.otherSc es (.app P.K.cast [c.key]) (P.K.decId c + 2) = some sc →
      ∀ ρ, InDom M (c.terms.flatMap Fm.vars) ρ → M.truth (Fm.eval M ρ sc) →
      RandOK P.K.E.L P.K.steps P.K.cells M X.enc P.K.cast [(c.cipher, ρ)] (Fm.eval M ρ c.key)

/-- SPECIFICATION. The structure meets an assumption. -/
def AssOK [DecidableEq F] (P : Prob F) (M : Str F D) (points : List D) : Ass F → Prop
  | .ufCma U _ => ∃ gr, MacOK P M U gr
  | .eufCma U _ => ∃ gr, SignOK P M U gr
  | .intCtxt X => ∃ gr, CtxtOK P M X gr
  | .nonce sym => ∃ ta gr, NonceOK P M sym ta gr
  | .cell => ∀ c ∈ P.P.cells, CellOK P (M.comap P.ι) c
  | .unfolding r d => UnfoldOK P (M.comap P.ι) points r d

/-! ## The assertions are true -/

section
variable [DecidableEq F] {P : Prob F} {M : Str F D} {points : List D} {undef first : D}

theorem order_sound (hx : Execution P M points undef first) {l : List (Ax F)} (h : P.order = some l) :
    ∀ a ∈ l, ∀ ρ, AxTrue M ρ a := by
  unfold Prob.order at h
  obtain ⟨i, hi, rfl⟩ := Option.map_eq_some_iff.1 h
  intro a ha ρ
  have hall := C08_order_generate_partial hx.logic hx.run hx.wf ρ _ (by unfold orderGenerate; rw [hi]; rfl)
    (fun o ho => hx.orders o ho ρ)
  have key : ∀ φ, φ ∈ orderAxioms i.formula ++ [gtAxiom] ++ P.P.steps.map (stepDistinct P.P.steps) ++
      [stepExhaustive P.P.steps] ++ P.P.ordering.map orderingAxiom → M.truth (Fm.eval M ρ (φ.mapF P.ι)) := by
    intro φ hφ
    rw [holds_mapF]
    rcases hall φ hφ with rfl | h
    · exact hx.gt ρ
    · exact h
  simp only [List.cons_append, List.mem_cons, List.mem_append, List.mem_map] at ha
  rcases ha with rfl | ⟨φ, hφ, rfl⟩ | ⟨φ, hφ, rfl⟩
  · trivial
  · refine key φ ?_
    simp only [List.mem_append, List.mem_singleton, List.mem_map, List.mem_cons, List.not_mem_nil, or_false] at hφ ⊢
    tauto
  · refine key φ ?_
    simp only [List.mem_append, List.mem_singleton, List.mem_map, List.mem_cons, List.not_mem_nil, or_false] at hφ ⊢
    rcases hφ with (h | h) | h
    · exact .inl (.inl (.inr h))
    · exact .inl (.inr h)
    · exact .inr h

theorem unfold_sound (hx : Execution P M points undef first) {r d : Bool} (hu : UnfoldOK P (M.comap P.ι) points r d)
    {l : List SFm} (h : unfoldingGenerate r d P.P = some l) (ρ : Valn D) : ∀ φ ∈ l, holds (M.comap P.ι) ρ φ := by
  unfold unfoldingGenerate at h
  obtain ⟨i, hi, rfl⟩ := Option.map_eq_some_iff.1 h
  intro φ hφ
  simp only [List.mem_append, List.mem_singleton] at hφ
  rcases hφ with ((hφ | rfl) | hφ) | hφ
  · exact (C49_msg_cond hx.logic hx.run.toIsTrace hx.wf ρ).2 (hu.macros ρ) φ hφ
  · have hv := (hx.run.init i hi)
    have : holds (M.comap P.ι) ρ (SFm.evalC (.app .exec [i.formula])) ↔ ExecTrue (M.comap P.ι) first := by
      have e : eval (M.comap P.ι) ρ i.formula = first := by
        rw [Step.formula, hv.1]
        simpa [eval, evals] using hv.2
      simp only [holds, SFm.evalC, eval, evals, e]
      rfl
    rw [this]
    exact hu.init first hx.run.head
  · split at hφ
    · rename_i hr
      exact C11_exec_recursive_sound hx.logic hx.run hu.prop hx.wf ρ hx.nodup (hu.exec hr) φ hφ
    · cases hφ
  · split at hφ
    · rename_i hd
      rw [List.mem_singleton] at hφ
      subst hφ
      refine (C11_direct_meaning hx.logic hx.run.toIsTrace hu.prop ρ).2 (hu.direct ?_)
      simpa using hd
    · cases hφ

theorem cell_sound (hx : Execution P M points undef first) (hc : ∀ c ∈ P.P.cells, CellOK P (M.comap P.ι) c) (ρ : Valn D) :
    ∀ φ ∈ cellGenerate P.P, holds (M.comap P.ι) ρ φ := by
  intro φ hφ
  unfold cellGenerate at hφ
  obtain ⟨c, hcm, hφ⟩ := List.mem_flatMap.1 hφ
  have hk := hc c hcm
  rw [cellAxioms_eq] at hφ
  obtain ⟨b, hb, rfl⟩ := List.mem_map.1 hφ
  rw [holds_forall, quantVal_all]
  intro ds hds
  obtain ⟨ks, d, rfl, hks, hd⟩ : ∃ ks d, ds = ks ++ [d] ∧ InDoms (M.comap P.ι) (sortsToVariables (P.P.maxVar + 1) c.args) ks ∧
      (M.comap P.ι).dom .step d := by
    have key : ∀ (vs : List Var) (w : Var) (ds : List D), InDoms (M.comap P.ι) (vs ++ [w]) ds →
        ∃ ks d, ds = ks ++ [d] ∧ InDoms (M.comap P.ι) vs ks ∧ (M.comap P.ι).dom w.sort d := by
      intro vs w
      induction vs with
      | nil =>
        intro ds h
        match ds, h with
        | [d], h => exact ⟨[], d, rfl, trivial, h.1⟩
        | d :: _ :: _, h => exact h.2.elim
      | cons v vs ih =>
        intro ds h
        match ds, h with
        | d :: ds, h =>
          obtain ⟨ks, e, rfl, h1, h2⟩ := ih ds h.2
          exact ⟨d :: ks, e, rfl, ⟨h.1, h1⟩, h2⟩
    exact key _ _ _ hds
  have hi : CellIdx (M.comap P.ι) c ks := sorts_doms _ _ _ _ hks
  refine (cellBodies_iff hx.logic hk.wf ρ ks d ?_).2 ⟨hk.write ρ ks d hi hd, hk.keep ρ ks d hi hd⟩ b hb
  have := hks.length
  rw [← this]
  simp [sortsToVariables]

theorem optO_false (b : Bool) (hb : b = false) (l : Option (List (Fm F))) : optO b l = some [] := by
  subst hb; rfl

theorem uf_sound {U : Uf F} {split : F} {gr : Srt → Prop} (hu : MacOK P M U gr) {l : List (Ax F)} (h : P.ufCma U split = some l) :
    ∀ a ∈ l, ∀ ρ, AxTrue M ρ a := by
  have hg : P.general = false := by simp [Prob.general, hu.evaluated]
  have hd : optO P.define (U.defineSubterms P.K P.I P.vampire) = some [] := by
    unfold optO Uf.defineSubterms Pbl.defineSubterms
    simp [hu.evaluated]
  unfold Prob.ufCma at h
  rw [optO_false _ hg, optO_false _ hg, hd] at h
  split at h
  · rename_i a b c d e ha hb hc hd' he
    cases hc; cases hd'; cases he; cases h
    intro x hx ρ
    simp only [List.append_nil, List.map_nil, List.map_cons, List.mem_cons, List.mem_map] at hx
    rcases hx with rfl | rfl | ⟨φ, hφ, rfl⟩
    · trivial
    · exact (C61_mac_correct hu.verify ha ρ).2 hu.correct
    · unfold optO at hb
      split at hb
      · rename_i hi
        obtain ⟨cs, hcs⟩ : ∃ cs, U.candidates P.K = some cs := by
          cases hcs : U.candidates P.K with
          | none => simp [Uf.preprocess, hcs] at hb
          | some cs => exact ⟨cs, rfl⟩
        have hun := hu.unforgeable
        cases hh : U.hmac with
        | false =>
          rw [hh] at hun
          exact C61_mac_partial hu.setting hh hu.distinct.1 hu.mac hu.verify hun hcs
            (fun c hc => (hu.cands hi cs hcs c hc).1) hb ρ φ hφ
        | true =>
          rw [hh] at hun
          exact C61_hmac_partial hu.setting hh hu.distinct.1 hu.distinct.2.1 hu.distinct.2.2 hu.mac hu.verify hun hcs
            (fun c hc => (hu.cands hi cs hcs c hc).1) (fun c hc => (hu.cands hi cs hcs c hc).2 hh) hb ρ φ hφ
      · cases hb; cases hφ
  · cases h

theorem euf_sound {U : Euf F} {split : F} {gr : Srt → Prop} (hu : SignOK P M U gr) {l : List (Ax F)}
    (h : P.eufCma U split = some l) : ∀ a ∈ l, ∀ ρ, AxTrue M ρ a := by
  have hg : P.general = false := by simp [Prob.general, hu.evaluated]
  have hd : optO P.define (U.defineSubterms P.K P.I P.vampire) = some [] := by
    unfold optO Euf.defineSubterms Pbl.defineSubterms
    simp [hu.evaluated]
  unfold Prob.eufCma at h
  rw [optO_false _ hg, optO_false _ hg, hd] at h
  split at h
  · rename_i b c d e hb hc hd' he
    cases hc; cases hd'; cases he; cases h
    intro x hx ρ
    simp only [List.append_nil, List.map_nil, List.mem_cons, List.mem_map] at hx
    rcases hx with rfl | ⟨φ, hφ, rfl⟩
    · trivial
    · unfold optO at hb
      split at hb
      · rename_i hi
        obtain ⟨cs, hcs⟩ : ∃ cs, U.candidates P.K = some cs := by
          cases hcs : U.candidates P.K with
          | none => simp [Euf.preprocess, hcs] at hb
          | some cs => exact ⟨cs, rfl⟩
        exact C61_signature_partial hu.setting hu.distinct hu.sign hu.verify hu.unforgeable hcs (hu.cands hi cs hcs) hb ρ φ hφ
      · cases hb; cases hφ
  · cases h

theorem ctxt_sound' {X : Ctx F} {gr : Srt → Prop} (hu : CtxtOK P M X gr) {l : List (Ax F)}
    (h : P.intCtxt X = some l) : ∀ a ∈ l, ∀ ρ, AxTrue M ρ a := by
  have hg : P.general = false := by simp [Prob.general, hu.evaluated]
  have hd : optO P.define (X.defineSubterms P.K P.I P.vampire) = some [] := by
    unfold optO Ctx.defineSubterms
    simp [hu.evaluated]
  unfold Prob.intCtxt at h
  rw [optO_false _ hg, hd] at h
  split at h
  · rename_i b c e a hb hc he ha
    cases hc; cases he; cases h
    intro x hx ρ
    simp only [List.append_nil, List.map_nil, List.cons_append, List.mem_cons, List.mem_append, List.mem_map, List.mem_singleton,
      List.not_mem_nil, or_false] at hx
    rcases hx with rfl | ⟨φ, hφ, rfl⟩ | rfl
    · trivial
    · unfold optO at hb
      split at hb
      · rename_i hi
        obtain ⟨cs, hcs⟩ : ∃ cs, X.candidates P.K = some cs := by
          cases hcs : X.candidates P.K with
          | none => simp [Ctx.preprocess, hcs] at hb
          | some cs => exact ⟨cs, rfl⟩
        obtain ⟨⟨es, side⟩, hes⟩ : ∃ p, X.encs P.K = some p := by
          cases hes : X.encs P.K with
          | none => simp [Ctx.preprocess, hcs, hes] at hb
          | some p => exact ⟨p, rfl⟩
        refine C64_instance_partial hu.setting hu.distinct hu.enc hu.dec hu.fail hu.integrity hcs (hu.cands hi cs hcs) hes
          (fun hs c hc sc hsc ρ h1 h2 => ?_) hb ρ φ hφ
        subst hs
        exact hu.rands hi cs hcs es hes c hc sc hsc ρ h1 h2
      · cases hb; cases hφ
    · exact (C64_correct hu.setting.logical.sem hu.dec ha ρ).2 hu.correct
  · cases h

theorem nonce_sound {sym : Option Srt → Option F} {ta : F → Prop} {gr : Srt → Prop} (hu : NonceOK P M sym ta gr)
    {r : List (Fm F) × Fm F} (h : P.K.nonce P.I P.vampire sym = some r) (ρ : Valn D) :
    (∀ φ ∈ r.1, M.truth (Fm.eval M ρ φ)) ∧ M.truth (Fm.eval M ρ r.2) := by
  obtain ⟨h1, h2⟩ := C46_nonce_evaluated_partial hu.setting hu.bodies hu.ends hu.reads hu.info hu.hidden
    (axs := r.1) (g := r.2) h ρ
  refine ⟨fun φ hφ => ?_, h2⟩
  rcases h1 φ hφ with h | ⟨f, hf, hd, hn, _⟩
  · exact h
  · exact absurd (hu.special f hf hd) hn

theorem ass_sound (hx : Execution P M points undef first) {a : Ass F} (ha : AssOK P M points a) {l : List (Ax F)}
    (h : P.ass a = some l) : ∀ x ∈ l, ∀ ρ, AxTrue M ρ x := by
  cases a with
  | ufCma U split => obtain ⟨gr, hu⟩ := ha; exact uf_sound hu h
  | eufCma U split => obtain ⟨gr, hu⟩ := ha; exact euf_sound hu h
  | intCtxt X => obtain ⟨gr, hu⟩ := ha; exact ctxt_sound' hu h
  | nonce sym =>
    obtain ⟨ta, gr, hu⟩ := ha
    obtain ⟨r, hr, rfl⟩ := Option.map_eq_some_iff.1 h
    intro x hxm ρ
    obtain ⟨h1, h2⟩ := nonce_sound hu hr ρ
    simp only [List.cons_append, List.mem_cons, List.mem_append, List.mem_map, List.not_mem_nil, or_false] at hxm
    rcases hxm with rfl | ⟨φ, hφ, rfl⟩ | rfl
    · trivial
    · exact h1 φ hφ
    · exact h2
  | cell =>
    cases h
    intro x hxm ρ
    rcases List.mem_cons.1 hxm with rfl | hxm
    · trivial
    · obtain ⟨φ, hφ, rfl⟩ := List.mem_map.1 hxm
      exact (holds_mapF _ _ _ _).2 (cell_sound hx ha ρ φ hφ)
  | unfolding r d =>
    obtain ⟨l', hl', rfl⟩ := Option.map_eq_some_iff.1 h
    intro x hxm ρ
    rcases List.mem_cons.1 hxm with rfl | hxm
    · trivial
    · obtain ⟨φ, hφ, rfl⟩ := List.mem_map.1 hxm
      exact (holds_mapF _ _ _ _).2 (unfold_sound hx ha hl' ρ φ hφ)

/-- SPECIFICATION. The user's assertions and the query are formulas through which evaluation can be pushed, with enough
fuel, and the assertions are true. -/
structure UserOK (P : Prob F) (M : Str F D) (sig : Sig F) (Γ : Nat → Srt) : Prop where
  typing : Typing P.K.E M sig
  push : ∀ φ ∈ P.query :: P.assertions, PushableF P.K.E sig Γ φ ∧ φ.size ≤ P.fuel
  hold : ∀ φ ∈ P.assertions, ∀ ρ, Resp M Γ ρ → M.truth (Fm.eval M ρ φ)

/-- The assertions of the file: the query is the last, and the others are true. -/
theorem file_sound {g : GenFile F} (h : P.file = some g) (hx : Execution P M points undef first)
    (ha : ∀ a ∈ P.crypto, AssOK P M points a) {sig : Sig F} {Γ : Nat → Srt} (hu : UserOK P M sig Γ) :
    ∃ as q, g.assertions = as ++ [.query q] ∧
      (∀ a ∈ as, (∀ ρ, AxTrue M ρ a) ∨ ∃ φ, a = .base φ ∧ ∀ ρ, Resp M Γ ρ → M.truth (Fm.eval M ρ φ)) ∧
      ∀ ρ, Resp M Γ ρ → Fm.eval M ρ q = Fm.eval M ρ P.query := by
  unfold Prob.file at h
  split at h
  swap
  · cases h
  rename_i axs ds haxs hds
  cases h
  unfold Prob.axioms at haxs
  split at haxs
  swap
  · cases haxs
  rename_i o e c a q ho he hc has hq
  cases haxs
  refine ⟨o ++ e ++ [.comment "crypto".toList] ++ c ++ [.comment "user asserts".toList] ++ a.map .base ++
    [.comment "query".toList], q, by simp, ?_, ?_⟩
  · intro x hxm
    simp only [List.mem_append, List.mem_singleton, List.mem_map] at hxm
    rcases hxm with (((((hxm | hxm) | rfl) | hxm) | rfl) | ⟨φ, hφ, rfl⟩) | rfl
    · exact .inl (order_sound hx ho x hxm)
    · exact .inl (sound_of_skolem P.K.E M hx.ok hx.logical hx.homo hx.skolem hx.ident hx.legacy e he x hxm)
    · exact .inl fun _ => trivial
    · obtain ⟨b, hb, l, hl, hxl⟩ := flatO_mem hc hxm
      exact .inl (ass_sound hx (ha b hb) hl x hxl)
    · exact .inl fun _ => trivial
    · obtain ⟨ψ, hψ, hp⟩ := Ev.mapO_mem has φ hφ
      obtain ⟨h1, h2⟩ := hu.push ψ (List.mem_cons_of_mem _ hψ)
      obtain ⟨φ', e1, e2⟩ := C33_propagate_partial hu.typing hx.homo h1 _ h2
      rw [hp] at e1
      cases e1
      refine .inr ⟨φ, rfl, fun ρ hρ => ?_⟩
      rw [e2 ρ hρ]
      exact hu.hold ψ hψ ρ hρ
    · exact .inl fun _ => trivial
  · obtain ⟨h1, h2⟩ := hu.push P.query (by simp)
    obtain ⟨φ', e1, e2⟩ := C33_propagate_partial hu.typing hx.homo h1 _ h2
    rw [hq] at e1
    cases e1
    exact e2

/-- **C71: the assertions of the file are true in every execution in which the assumptions hold**, and the query is the
user's. Missing for the full property: `gt` has its meaning from the axiom and not the natural one (`Execution.gt`);
`exec` from the direct definition has the meaning of that definition (`UnfoldOK.direct`); the cryptographic assumptions
are covered in the evaluated realm only, where there are no axioms on subterms besides those of the nonces; the hypotheses
of the theorems on each of them. -/
theorem C71_sound_partial {g : GenFile F} (h : P.file = some g) (hx : Execution P M points undef first)
    (ha : ∀ a ∈ P.crypto, AssOK P M points a) {sig : Sig F} {Γ : Nat → Srt} (hu : UserOK P M sig Γ) :
    ∃ as q, g.assertions = as ++ [.query q] ∧ (∀ a ∈ as, ∀ ρ, Resp M Γ ρ → AxTrue M ρ a) ∧
      ∀ ρ, Resp M Γ ρ → Fm.eval M ρ q = Fm.eval M ρ P.query := by
  obtain ⟨as, q, h1, h2, h3⟩ := file_sound h hx ha hu
  refine ⟨as, q, h1, fun a ham ρ hρ => ?_, h3⟩
  rcases h2 a ham with h | ⟨φ, rfl, h⟩
  · exact h ρ
  · exact h ρ hρ

/-- **C71: if the solver is right that the emitted text has no model, the query is true in every execution in which the
assumptions hold** and that agrees with the declarations: here from the problem to the text, by C14. Missing: as for
`C71_sound_partial`, and that the structure meets the declarations is a hypothesis. -/
theorem C71_proved_partial {g : GenFile F} (h : P.file = some g) (hx : Execution P M points undef first)
    (ha : ∀ a ∈ P.crypto, AssOK P M points a) {sig : Sig F} {Γ : Nat → Srt} (hu : UserOK P M sig Γ)
    {S : SymInfo F} (hS : Names S) (o : Opts) (hg : FileOK S o.evaluated g) (hstd : Std S M) (hno : Noop S o.evaluated M)
    (hdecl : ∀ d ∈ g.declarations, declSem S M d) :
    ∃ t es, output S o g = some t ∧ read t = some es ∧
      ((∀ (D : Type) (I : Interp D), ¬ ∀ e ∈ es, cmdSem I e) → ∀ ρ, Resp M Γ ρ → M.truth (Fm.eval M ρ P.query)) := by
  obtain ⟨as, q, h1, h2, h3⟩ := file_sound h hx ha hu
  obtain ⟨axs, ds⟩ := g
  simp only at h1
  subst h1
  obtain ⟨t, es, ht, hr, hun⟩ := C14_unsat_iff_entailed hS o (ds := ds) (as := as) (bs := []) (f := q) hg
  refine ⟨t, es, ht, hr, fun hns ρ hρ => ?_⟩
  rw [← h3 ρ hρ]
  refine hun.1 hns D M ⟨hstd, hno, hdecl, fun a ham => ?_⟩ ρ
  simp only [List.append_nil] at ham
  have hok := hg.ax a (by simp [ham])
  rcases h2 a ham with h | ⟨φ, rfl, h⟩
  · cases a with
    | query φ =>
      exact fun ρ => h ρ
    | comment _ => trivial
    | base φ => exact fun ρ => h ρ
    | theory φ => exact fun ρ => h ρ
    | ground s φ => exact fun ρ => h ρ
    | rewrite k vs pre post => exact fun ρ => h ρ
  · intro ρ'
    rw [Fm.holds, FmOK.closed hS hok hstd hno ρ' ρ]
    exact h ρ hρ

end

/-! ## The cell axioms contradict the datatypes -/

section
variable [DecidableEq F] {P : Prob F} {g : GenFile F}

mutual
/-- SPECIFICATION. A term of sort `s` over declared symbols and the variables `vs`. -/
def HasSort (P : Prob F) (vs : List Var) : SFm → Srt → Prop
  | .var v, s => v ∈ vs ∧ v.sort = s
  | .app f ts, s => P.ι f ∈ P.K.E.functions ∧ P.builtin (P.ι f) = false ∧ P.K.E.L.out (P.ι f) = some s ∧
      ∃ ss, P.I.insort (P.ι f) = some ss ∧ HasSorts P vs ts ss
  | .quant _ _ _, _ => False
/-- SPECIFICATION. -/
def HasSorts (P : Prob F) (vs : List Var) : List SFm → List Srt → Prop
  | [], [] => True
  | t :: ts, s :: ss => HasSort P vs t s ∧ HasSorts P vs ts ss
  | _, _ => False
end

/-- SPECIFICATION. The printer knows the sorts of the symbols and which are the logical ones. -/
structure Printer (P : Prob F) (S : SymInfo F) : Prop where
  ins : S.insort = P.I.insort
  out : S.outsort = P.K.E.L.out
  tru : S.kind (P.ι (.bool .tru)) = .tru
  fls : S.kind (P.ι (.bool .fls)) = .fls
  and : S.kind (P.ι (.bool .and)) = .and
  or : S.kind (P.ι (.bool .or)) = .or
  not : S.kind (P.ι (.bool .not)) = .not
  imp : S.kind (P.ι (.bool .imp)) = .imp
  eq : S.kind (P.ι (.bool .eq)) = .eq

theorem Printer.logic {S : SymInfo F} (hP : Printer P S) {M : Str F D} (hs : Std S M) : Logic (M.comap P.ι) where
  tru := hs.tru _ hP.tru
  fls := hs.fls _ hP.fls
  and := hs.and _ hP.and
  or := hs.or _ hP.or
  not := hs.not _ hP.not
  imp := hs.imp _ hP.imp
  eq a b := by
    refine (hs.eq _ hP.eq [a, b]).trans ?_
    show M.ofProp _ = M.ofProp _
    congr 1
    apply propext
    simp only [List.mem_cons, List.not_mem_nil, or_false, forall_eq_or_imp, forall_eq, true_and, and_true]
    exact ⟨fun h => h.1, fun h => ⟨h, h.symm⟩⟩

theorem zip_snd {α β : Type} : ∀ (l : List α) (l' : List β), l.length = l'.length → (l.zip l').map (·.2) = l'
  | [], [], _ => rfl
  | a :: l, b :: l', h => by
    simp only [List.length_cons, Nat.add_right_cancel_iff] at h
    simp [zip_snd l l' h]

/-- The constructors of a sort, as the datatypes declare them. -/
theorem cons_sem (h : P.file = some g) {S : SymInfo F} (hP : Printer P S) {M : Str F D}
    (hd : ∀ d ∈ g.declarations, declSem S M d) {s : Srt} {f₀ : F} (hf₀ : f₀ ∈ P.K.E.functions) (hb₀ : P.builtin f₀ = false)
    (hc₀ : P.isCons f₀ = true) (ho₀ : P.K.E.L.out f₀ = some s) :
    ∃ cs, DataSem M.fn M.dom s cs ∧ ∀ f ∈ P.K.E.functions, P.builtin f = false → P.isCons f = true → P.K.E.L.out f = some s →
      ∀ ss, P.I.insort f = some ss → ∃ c ∈ cs, c.1 = f ∧ c.2.map (·.2) = ss := by
  obtain ⟨ds, hds, -, -, hch⟩ := C71_datatypes h
  have hm := (hch s _).2 ⟨?_, rfl⟩
  · refine ⟨_, hd _ hds _ hm, ?_⟩
    intro f hf hb hc ho ss hss
    refine ⟨_, List.mem_map.2 ⟨_, List.mem_map.2 ⟨f, ?_, rfl⟩, rfl⟩, rfl, ?_⟩
    · simp only [List.mem_filter, Bool.and_eq_true, Bool.not_eq_true', beq_iff_eq]
      exact ⟨hf, hb, hc, ho⟩
    · simp only
      rw [hP.ins, hss]
      exact zip_snd _ _ (by simp)
  · intro hn
    have : f₀ ∈ ([] : List F) := by
      rw [← List.map_eq_nil_iff.1 hn]
      simp only [List.mem_filter, Bool.and_eq_true, Bool.not_eq_true', beq_iff_eq]
      exact ⟨hf₀, hb₀, hc₀, ho₀⟩
    cases this

/-- Declared symbols are typed. -/
theorem fn_typed (h : P.file = some g) {S : SymInfo F} (hP : Printer P S) {M : Str F D}
    (hd : ∀ d ∈ g.declarations, declSem S M d) {s : Srt} {f : F} (hf : f ∈ P.K.E.functions) (hb : P.builtin f = false)
    (ho : P.K.E.L.out f = some s) {ss : List Srt} (hss : P.I.insort f = some ss) {as : List D} (has : Typed M.dom ss as) :
    M.dom s (M.fn f as) := by
  cases hc : P.isCons f with
  | true =>
    obtain ⟨cs, hsem, hall⟩ := cons_sem h hP hd hf hb hc ho
    obtain ⟨c, hcm, rfl, rfl⟩ := hall f hf hb hc ho ss hss
    exact hsem.typed c hcm as has
  | false =>
    obtain ⟨l, hl, e⟩ := file_decls h
    obtain ⟨ds, hds, e'⟩ := unsorted_eq hl
    have : Decl.free f ∈ g.declarations := by
      rw [decl_mem h hl, e']
      simp only [List.mem_append, List.mem_map, Decl.free.injEq, exists_eq_right]
      refine .inl (.inl (.inl (.inl (.inr ?_))))
      simp [Prob.declared, hf, hb, hc]
    exact hd _ this ss s (by rw [hP.ins, hss]) (by rw [hP.out, ho]) as has

mutual
theorem eval_typed (h : P.file = some g) {S : SymInfo F} (hP : Printer P S) {M : Str F D}
    (hd : ∀ d ∈ g.declarations, declSem S M d) {vs : List Var} {ρ : Valn D} (hρ : ∀ v ∈ vs, M.dom v.sort (ρ v.id)) :
    ∀ (t : SFm) (s : Srt), HasSort P vs t s → M.dom s (Fm.eval (M.comap P.ι) ρ t)
  | .var v, s, ht => by
    obtain ⟨hv, rfl⟩ := ht
    exact hρ v hv
  | .app f ts, s, ht => by
    obtain ⟨h1, h2, h3, ss, h4, h5⟩ := ht
    exact fn_typed h hP hd h1 h2 h3 h4 (evals_typed h hP hd hρ ts ss h5)
  | .quant _ _ _, s, ht => ht.elim
theorem evals_typed (h : P.file = some g) {S : SymInfo F} (hP : Printer P S) {M : Str F D}
    (hd : ∀ d ∈ g.declarations, declSem S M d) {vs : List Var} {ρ : Valn D} (hρ : ∀ v ∈ vs, M.dom v.sort (ρ v.id)) :
    ∀ (ts : List SFm) (ss : List Srt), HasSorts P vs ts ss → Typed M.dom ss (Fm.evals (M.comap P.ι) ρ ts)
  | [], [], _ => trivial
  | t :: ts, s :: ss, ht => ⟨eval_typed h hP hd hρ t s ht.1, evals_typed h hP hd hρ ts ss ht.2⟩
  | [], _ :: _, ht => ht.elim
  | _ :: _, [], ht => ht.elim
end

theorem sets_dom {M : Str Sym D} : ∀ (vs : List Var) (ρ : Valn D) (ds : List D), (vs.map Var.id).Nodup → InDoms M vs ds →
    ∀ v ∈ vs, M.dom v.sort (ρ.sets vs ds v.id)
  | [], _, _, _, _, v, hv => nomatch hv
  | w :: vs, ρ, [], _, h, _, _ => h.elim
  | w :: vs, ρ, d :: ds, hn, h, v, hv => by
    simp only [List.map_cons, List.nodup_cons] at hn
    rcases List.mem_cons.1 hv with rfl | hv
    · have : (ρ.sets (v :: vs) (d :: ds)) v.id = d := by
        show (Valn.sets _ vs ds) v.id = d
        rw [Valn.sets_notin _ _ _ _ hn.1]
        simp [Valn.set]
      rw [this]
      exact h.1
    · exact sets_dom vs _ ds hn.2 h.2 v hv

theorem inDoms_exist {M : Str Sym D} : ∀ (vs : List Var), (∀ v ∈ vs, ∃ d, M.dom v.sort d) → ∃ ds, InDoms M vs ds
  | [], _ => ⟨[], trivial⟩
  | v :: vs, h => by
    obtain ⟨d, hd⟩ := h v (by simp)
    obtain ⟨ds, hds⟩ := inDoms_exist vs fun w hw => h w (by simp [hw])
    exact ⟨d :: ds, hd, hds⟩

theorem typed_inDoms {M : Str Sym D} : ∀ (ss : List Srt) (n : Nat) (ks : List D), Typed M.dom ss ks →
    InDoms M (sortsToVariables n ss) ks := by
  intro ss n ks h
  have key : ∀ (vs : List Var) (ks : List D), Typed M.dom (vs.map Var.sort) ks → InDoms M vs ks := by
    intro vs
    induction vs with
    | nil => intro ks h; cases ks with
      | nil => trivial
      | cons _ _ => exact h
    | cons v vs ih => intro ks h; cases ks with
      | nil => exact h
      | cons k ks => exact ⟨h.1, ih ks h.2⟩
  refine key _ ks ?_
  have : (sortsToVariables n ss).map Var.sort = ss := by
    unfold sortsToVariables
    apply List.ext_getElem <;> simp
  rw [this]
  exact h

theorem typed_append {S : Type} {dom : S → D → Prop} : ∀ (ss ss' : List S) (ks ks' : List D), Typed dom ss ks → Typed dom ss' ks' →
    Typed dom (ss ++ ss') (ks ++ ks')
  | [], ss', [], ks', _, h => h
  | s :: ss, ss', k :: ks, ks', h, h' => ⟨h.1, typed_append ss ss' ks ks' h.2 h'⟩
  | [], _, _ :: _, _, h, _ => h.elim
  | _ :: _, _, [], _, h, _ => h.elim

/-- SPECIFICATION. An assignment to a cell of a message made of another symbol than the cell. -/
structure Assigns (P : Prob F) (c : Cell) (a : Assign) (f : Sym) (ts : List SFm) : Prop where
  cell : c ∈ P.P.cells
  assign : a ∈ c.assigns
  wf : CellWF P.P.maxVar c
  nodup : ((a.step.vars ++ a.fresh).map Var.id).Nodup
  vars : ∀ v ∈ a.step.vars ++ a.fresh, v.sort ∈ P.K.E.sorts ∧ (v.sort = .index ∨ ∃ n, v.sort = .user n)
  content : a.content = .app f ts
  other : P.ι f ≠ P.ι (.cell c.fid)
  sort : HasSort P (a.step.vars ++ a.fresh) a.content .message
  step : HasSort P (a.step.vars ++ a.fresh) a.step.formula .step
  args : HasSorts P (a.step.vars ++ a.fresh) a.args c.args
  function : P.ι (.cell c.fid) ∈ P.K.E.functions ∧ P.builtin (P.ι (.cell c.fid)) = false
  sorts : P.I.insort (P.ι (.cell c.fid)) = some (c.args ++ [.step]) ∧ P.K.E.L.out (P.ι (.cell c.fid)) = some .message

/-- **C71, counterexample: with memory cells the file has no model in the symbolic realm, whatever the query.** When both
the cell and the head symbol of an assigned message are of the term algebra, they are different constructors of the
datatype of messages, but the axiom of the assignment says that they have the same value. So the solver proves every
query. -/
theorem C71_cells_counterexample (h : P.file = some g) (hsym : P.K.E.symbolic = true) (hcell : .cell ∈ P.crypto) {c : Cell}
    {a : Assign} {f : Sym} {ts : List SFm} (ha : Assigns P c a f ts) (hta : P.I.ta (P.ι (.cell c.fid)) = true)
    (hta' : P.I.ta (P.ι f) = true) {S : SymInfo F} (hP : Printer P S) :
    ∃ as q, g.assertions = as ++ [.query q] ∧ ∀ (D : Type) (M : Str F D) ev, ¬ Models S ev M ⟨as, g.declarations⟩ := by
  have h0 := h
  unfold Prob.file at h
  split at h
  swap
  · cases h
  rename_i axs ds haxs hds
  cases h
  unfold Prob.axioms at haxs
  split at haxs
  swap
  · cases haxs
  rename_i o e cr as q ho he hc has hq
  cases haxs
  refine ⟨o ++ e ++ [.comment "crypto".toList] ++ cr ++ [.comment "user asserts".toList] ++ as.map .base ++
    [.comment "query".toList], q, by simp, ?_⟩
  intro D M ev hM
  have hL := hP.logic hM.std
  have hax : ∀ φ ∈ cellGenerate P.P, ∀ ρ, holds (M.comap P.ι) ρ φ := by
    intro φ hφ ρ
    obtain ⟨l, hl, hsub⟩ := flatO_mem' hc hcell
    cases hl
    have := hM.ax (.base (φ.mapF P.ι)) (by
      simp only [List.mem_append]
      exact .inl (.inl (.inl (.inr (hsub _ (List.mem_cons_of_mem _ (List.mem_map_of_mem hφ)))))))
    exact (holds_mapF _ _ _ _).1 (this ρ)
  have hdecl := hM.decl
  obtain ⟨l, hl, el⟩ := file_decls h0
  obtain ⟨dts, hdts, el'⟩ := unsorted_eq hl
  obtain ⟨ds, hds⟩ := inDoms_exist (M := M.comap P.ι) (a.step.vars ++ a.fresh) (by
    intro v hv
    obtain ⟨h1, h2⟩ := ha.vars v hv
    have : Decl.sort v.sort ∈ sortDecl l := by
      rw [(sortDecl_perm _).mem_iff, el']
      simp only [List.mem_append]
      refine .inl (.inl (.inl (.inl (.inl ?_))))
      simp only [Prob.sortDecls, List.mem_map, List.mem_filter, Decl.sort.injEq, exists_eq_right]
      rcases h2 with h2 | ⟨n, h2⟩ <;> rw [h2] at h1 ⊢ <;> simp [h1, isDatatype, isEvaluated]
    exact hdecl _ (by rw [el]; exact this))
  let ρ : Valn D := fun _ => M.ofProp True
  have hρ := sets_dom _ ρ ds ha.nodup hds
  have hcont := eval_typed h0 hP hdecl hρ _ _ ha.sort
  have hstep := eval_typed h0 hP hdecl hρ _ _ ha.step
  have hargs := evals_typed h0 hP hdecl hρ _ _ ha.args
  rw [Fm.evals_eq] at hargs
  have hidx := typed_inDoms (M := M.comap P.ι) _ (P.P.maxVar + 1) _ hargs
  have hcall : (M.comap P.ι).fn (.cell c.fid) (a.args.map (Fm.eval (M.comap P.ι) (ρ.sets (a.step.vars ++ a.fresh) ds)) ++
      [Fm.eval (M.comap P.ι) (ρ.sets (a.step.vars ++ a.fresh) ds) a.step.formula]) =
      Fm.eval (M.comap P.ι) (ρ.sets (a.step.vars ++ a.fresh) ds) a.content := by
    refine ((cellBodies_iff hL ha.wf ρ _ _ (hidx.length.symm.trans (by simp [sortsToVariables]))).1 ?_).1 _
      ⟨a, ha.assign, ds, hds, rfl, rfl, rfl⟩
    intro b hb
    have := hax (Fm.mkForall (cellVars P.P.maxVar c) b) (List.mem_flatMap.2 ⟨c, ha.cell, by
      rw [cellAxioms_eq]; exact List.mem_map_of_mem hb⟩) ρ
    rw [holds_forall, quantVal_all] at this
    exact this _ (cellVars_doms hidx hstep)
  have hsort := ha.sort
  rw [ha.content] at hsort hcall
  obtain ⟨f1, f2, f3, ss, f4, f5⟩ := hsort
  have hcons : P.isCons (P.ι f) = true := by simp [Prob.isCons, hta', hsym]
  have hcons' : P.isCons (P.ι (.cell c.fid)) = true := by simp [Prob.isCons, hta, hsym]
  obtain ⟨cs, hsem, hall⟩ := cons_sem h0 hP hdecl f1 f2 hcons f3
  obtain ⟨c1, hc1, e1, e1'⟩ := hall _ f1 f2 hcons f3 _ f4
  obtain ⟨c2, hc2, e2, e2'⟩ := hall _ ha.function.1 ha.function.2 hcons' ha.sorts.2 _ ha.sorts.1
  have h2 : Typed M.dom (c.args ++ [.step]) (a.args.map (Fm.eval (M.comap P.ι) (ρ.sets (a.step.vars ++ a.fresh) ds)) ++
      [Fm.eval (M.comap P.ι) (ρ.sets (a.step.vars ++ a.fresh) ds) a.step.formula]) :=
    typed_append _ _ _ _ hargs ⟨hstep, trivial⟩
  have := hsem.inj c2 hc2 c1 hc1 _ (Fm.evals (M.comap P.ι) _ ts) (by rw [e2']; exact h2)
    (by rw [e1']; exact evals_typed h0 hP hdecl hρ _ _ f5)
    (by rw [e1, e2]; exact hcall)
  rw [e1, e2] at this
  exact ha.other this.1.symm

end
end Gen
end CV
