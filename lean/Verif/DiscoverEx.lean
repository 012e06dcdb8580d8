import Verif.DiscoverProps
import Verif.CryptoEx
set_option linter.unusedSimpArgs false
/-
Cases for C68, and what is wrong: terms expected at two sorts, missing arguments, sides of an equality, literals under
an evaluation; and the false axiom that an instance gives (C61).
-/
namespace CV
namespace Disc
namespace Ex
open Prs Cry Cry.CEx Dep Ev SmtM

/-- The functions known: those of the example of C61, without the evaluations, as in the tool (builtin.rs:238-270). -/
def known : String → Option (Fun Z)
  | "=" => some ⟨.eq, .base .eq2, false⟩
  | "and" => some ⟨.and, .base .nary, false⟩
  | "or" => some ⟨.or, .base .nary, false⟩
  | "not" => some ⟨.not, .base (.fixed [.bool] .bool), false⟩
  | "ite" => some ⟨.ite, .base .ite3, false⟩
  | "sub" => some ⟨.sub, .sub .message, false⟩
  | "s" => some ⟨.s, .base (.fixed [.index] .step), false⟩
  | "input" => some ⟨.input, .base (.fixed [.step] .message), false⟩
  | "mac" => some ⟨.mac, .base (.fixed [.message, .message] .message), false⟩
  | "verify" => some ⟨.verify, .base (.fixed [.message, .message, .message] .condition), false⟩
  | "k" => some ⟨.k, .base (.fixed [] .name), false⟩
  | "cast" => some ⟨.cast, .base (.fixed [.name] .message), false⟩
  | "p" => some ⟨.p, .base (.fixed [] .message), false⟩
  | "g" => some ⟨.g, .base (.fixed [.message] .message), false⟩
  | "pair" => some ⟨.split, .base (.fixed [.message, .index, .index] .bool), false⟩
  | _ => none

def name : Z → String
  | .eq => "="
  | .and => "and"
  | .or => "or"
  | .not => "not"
  | .ite => "ite"
  | .sub => "sub"
  | .s => "s"
  | .input => "input"
  | .mac => "mac"
  | .verify => "verify"
  | .k => "k"
  | .cast => "cast"
  | .p => "p"
  | .g => "g"
  | .split => "pair"
  | _ => ""

theorem named : Named known name := by
  intro h f hk
  unfold known at hk
  split at hk <;> first | (cases hk; rfl) | cases hk

def p : TF := .app "p" []
def key : TF := .app "cast" [.app "k" []]
def X (n : Nat) : TF := .var s!"X{n}"
/-- A Skolem function of the solver. -/
def sk : TF := .app "sK3" [X 0]

/-- A literal: `verify(sK3(X0), X1, k)`. -/
def lit : TF := .app "verify" [sk, X 1, key]

theorem plain_sk : Plain known sk := .app (by intro f h; cases h) (by intro a ha; rw [List.mem_singleton.1 ha]; exact .var _)
theorem plain_key : Plain known key :=
  .app (by intro f h; cases h; simp) (by
    intro a ha
    rw [List.mem_singleton.1 ha]
    exact .app (by intro f h; cases h; simp) nofun)

theorem plain_lit : Plain known lit :=
  .app (by intro f h; cases h; simp)
    (List.forall_mem_cons.2 ⟨plain_sk, List.forall_mem_cons.2 ⟨.var _, List.forall_mem_singleton.2 plain_key⟩⟩)

theorem oneSort_lit : OneSort known lit := by
  have key : ∀ u s, At known none lit u s → s = .message := by
    intro u s h
    cases h with
    | arg hk ha he ht =>
      cases hk
      rename_i i a e
      match i with
      | 0 =>
        cases ha; cases he
        cases ht with
        | here => rfl
        | arg hk => cases hk
      | 1 =>
        cases ha; cases he
        cases ht with
        | here => rfl
      | 2 =>
        cases ha; cases he
        cases ht with
        | here hu => cases hu
        | arg hk ha he ht =>
          cases hk
          rename_i i a e
          match i with
          | 0 =>
            cases ha; cases he
            cases ht with
            | here hu => cases hu
            | arg hk ha he ht => cases hk; cases ha
          | n + 1 => cases ha
      | n + 3 => cases ha
  intro u s s' h h'
  rw [key u s h, key u s' h']

/-- Case for C68: `verify(sK3(X0), X1, k)` gives `verify(x0, x1, k)`. -/
theorem lit_ok : ∃ r, conv known false lit (.var 0) [] [none] = .ok r ∧
    r.1 = .app .verify [.var ⟨0, .message⟩, .var ⟨1, .message⟩, kF] := ⟨_, rfl, rfl⟩

example : ∃ κ : Nat → TF, back name κ (.app .verify [.var ⟨0, .message⟩, .var ⟨1, .message⟩, kF]) = lit ∧
    ∀ v ∈ (Fm.app Z.verify [.var ⟨0, .message⟩, .var ⟨1, .message⟩, kF]).vars, Unknown known (κ v.id) := by
  obtain ⟨r, hr, he⟩ := lit_ok
  rw [← he]
  exact C68_generalises_partial named plain_lit oneSort_lit hr

example : ∃ s, HasSort known (.app .verify [.var ⟨0, .message⟩, .var ⟨1, .message⟩, kF]) s := by
  obtain ⟨r, hr, he⟩ := lit_ok
  rw [← he]
  exact C68_sorted_partial hr

/-- With debug assertions, with an `ite`. -/
example : ∃ r, conv known true (.app "sub" [.app "ite" [.app "sub" [sk, p], sk, p], sk]) (.var 0) [] [none] = .ok r ∧
    ∃ κ : Nat → TF, back name κ r.1 = .app "sub" [.app "ite" [.app "sub" [sk, p], sk, p], sk] ∧ ∀ v ∈ r.1.vars, Unknown known (κ v.id) := by
  refine ⟨(_, _, _), rfl, C68_generalises_debug named ?_ (es := .var 0) (st := [none]) rfl⟩
  have hs : NoBinder sk := plain_sk.noBinder
  have hp : NoBinder p := .app nofun
  refine .app (List.forall_mem_cons.2 ⟨.app (List.forall_mem_cons.2 ⟨.app (List.forall_mem_cons.2 ⟨hs, List.forall_mem_singleton.2 hp⟩),
    List.forall_mem_cons.2 ⟨hs, List.forall_mem_singleton.2 hp⟩⟩), List.forall_mem_singleton.2 hs⟩)

example : Typed known .condition lit ∧ ¬ Unknown known lit := by
  refine ⟨.fixed (f := ⟨.verify, .base (.fixed [.message, .message, .message] .condition), false⟩) rfl rfl rfl rfl rfl ?_, ?_⟩
  · intro z hz
    simp only [List.zip_cons_cons, List.zip_nil_right, List.mem_cons, List.not_mem_nil, or_false] at hz
    rcases hz with rfl | rfl | rfl
    · exact .unknown (show known "sK3" = none from rfl)
    · exact .unknown trivial
    · refine .fixed (f := ⟨.cast, .base (.fixed [.name] .message), false⟩) rfl rfl rfl rfl rfl ?_
      intro z hz
      simp only [List.zip_cons_cons, List.zip_nil_right, List.mem_singleton] at hz
      subst hz
      exact .fixed (f := ⟨.k, .base (.fixed [] .name), false⟩) rfl rfl rfl rfl rfl nofun
  · intro h; cases h

/-- **C68 does not hold for unknown terms at two sorts.** Without debug assertions, `pair(X0, X0, X1)`, where `X0` is
expected as a message and as an index and `X1` as an index, gives `pair(x0, x1, x1)`: two different unknown terms are
given the same variable, and the instance does not generalise the literal. With debug assertions the tool stops. -/
theorem C68_sorts_counterexample : ∃ (K : String → Option (Fun Z)) (nm : Z → String) (t : TF) (r : Fm Z × VM × Store), Named K nm ∧ Plain K t ∧
    conv K false t (.var 0) [] [none] = .ok r ∧ conv K true t (.var 0) [] [none] = .panic ∧
    ∀ κ : Nat → TF, back nm κ r.1 ≠ t := by
  refine ⟨known, name, .app "pair" [X 0, X 0, X 1], _, named, ?_, rfl, rfl, ?_⟩
  · exact .app (by intro f h; cases h; simp)
      (List.forall_mem_cons.2 ⟨.var _, List.forall_mem_cons.2 ⟨.var _, List.forall_mem_singleton.2 (.var _)⟩⟩)
  · intro κ h
    have h : TF.app "pair" [κ 0, κ 1, κ 1] = .app "pair" [X 0, X 0, X 1] := h
    injection h with _ h
    injection h with _ h
    injection h with h1 h
    injection h with h2 _
    rw [h1] at h2
    exact absurd h2 (by decide)

/-- **Missing arguments.** `verify(X0)` gives a formula in which `verify` has one argument instead of three. -/
theorem C68_arity_counterexample : ∃ (K : String → Option (Fun Z)) (t : TF) (r : Fm Z × VM × Store),
    conv K false t (.var 0) [] [none] = .ok r ∧ r.1 = .app .verify [.var ⟨0, .message⟩] ∧
    ∃ f, K "verify" = some f ∧ f.sig = .base (.fixed [.message, .message, .message] .condition) :=
  ⟨known, .app "verify" [X 0], _, rfl, rfl, _, rfl, rfl⟩

/-- **Sides of an equality.** An equality between a step and a message is accepted. -/
theorem C68_equality_counterexample : ∃ (K : String → Option (Fun Z)) (t : TF) (r : Fm Z × VM × Store),
    conv K false t (.var 0) [] [none] = .ok r ∧ r.1 = .app .eq [.app .s [.var ⟨0, .index⟩], .app .p []] ∧
    HasSort K (.app .s [.var ⟨0, .index⟩]) .step ∧ HasSort K (.app .p []) .message := by
  refine ⟨known, .app "=" [.app "s" [X 0], p], _, rfl, rfl, ?_, ?_⟩
  · refine .app (h := "s") (f := ⟨Z.s, .base (.fixed [.index] .step), false⟩) rfl rfl (.fixed _ _) rfl (Nat.le_refl _) ?_
    intro z hz
    simp only [List.zip_cons_cons, List.zip_nil_right, List.mem_singleton] at hz
    subst hz
    exact .var rfl
  · exact .app (h := "p") (f := ⟨Z.p, .base (.fixed [] .message), false⟩) (ss := []) rfl rfl (.fixed _ _) rfl (Nat.le_refl _) nofun

/-- **Literals under an evaluation are lost.** When conditions are evaluated by a function that is not known, as
`evaluate_cond` is not, nothing is found in literals such as `evaluate_cond(verify(X0, p, k))`, whatever is evaluated and
whatever the sign. -/
theorem C68_evaluated_lost {K : String → Option (Fun G)} (h : K "evaluate_cond" = none) (t : TF) :
    conv K false (Lit.pos (.app "evaluate_cond" [t])).toTmp (.var 0) [] [none] = .err ∧
    ∀ g, K "ta$not" = some g → g.sig = .base (.fixed [.condition] .condition) → ∀ r,
      conv K false (Lit.neg (.app "evaluate_cond" [t])).toTmp (.var 0) [] [none] = .ok r → r.1 = .app g.sym [.var ⟨0, .condition⟩] := by
  refine ⟨(C68_unknown_lost (u := .app "evaluate_cond" [t]) h).1, ?_⟩
  intro g hg hs r hr
  simp only [Lit.toTmp] at hr
  rw [conv, hg] at hr
  dsimp only at hr
  split at hr
  · cases hr
  rw [hs] at hr
  simp only [Sg.inst, FSig.inst, List.map_cons, List.map_nil] at hr
  split at hr
  · cases hr
  obtain ⟨u, h1, h2⟩ := bind_ok.1 hr
  cases h2
  simp only [convs] at h1
  obtain ⟨v, h3, h4⟩ := bind_ok.1 h1
  simp only [Out.bind] at h4
  cases h4
  rw [conv, h] at h3
  simp only [toVar, List.lookup_nil, Option.bind_none, Px.get, Bool.false_and, Bool.false_eq_true, if_false, Out.bind] at h3
  cases h3
  rfl

example : known "evaluate_cond" = none := rfl

/-! ### A false axiom from an instance -/

/-- A literal printed by a solver: `sub(mac(p, k), mac(ite(verify(X0, p, k), p, p), k))`. -/
def printed : TF := .app "sub" [.app "mac" [p, key], .app "mac" [.app "ite" [.app "verify" [X 0, p, key], p, p], key]]

/-- The instance found. -/
def found : Fm Z := .app .sub [.app .mac [.app .p [], kF],
  .app .mac [.app .ite [.app .verify [.var ⟨0, .message⟩, .app .p [], kF], .app .p [], .app .p []], kF]]

/-- The problem of C61, with the instance added. -/
abbrev KD : Pbl Z := { K .mac true with tops := [found] }

/-- The axiom generated: for every message, if it verifies as a MAC of `p` then a MAC is part of it. -/
def falseAx' : Fm Z := .quant .all [⟨1, .message⟩] (.app .imp [
  .app .evc [.app .verify [.var ⟨1, .message⟩, .app .p [], kF]],
  .quant .ex [⟨2, .message⟩] (.app .and [
    .app .eq [.app .evm [.var ⟨2, .message⟩], .app .evm [.app .p []]],
    .app .or [.app .and [.app .sub [.app .mac [.var ⟨2, .message⟩, kF], .var ⟨1, .message⟩]]]])])

/-- **Instances can make the problem inconsistent.** The MAC is unforgeable and the protocol meets the hypotheses of
`C61_mac_partial`; the solver prints a literal, in which `X0` stands for a message, and the axiom generated for the
instance found is false (C61 is about instances without variables that stand for messages). -/
theorem C68_false_axiom_counterexample : ∃ (K : Pbl Z) (M : Str Z (Dep.Tm Z)) (U : Uf Z) (kn : String → Option (Fun Z)) (t : TF)
    (r : Fm Z × VM × Store) (φ : Fm Z), conv kn false t (.var 0) [] [none] = .ok r ∧ K.tops = [r.1] ∧
    Setting K M ∧ U.hmac = false ∧
    Unforgeable K.E.L K.steps K.cells M (KeyPart U.mac U.verify K.cast) (MainPart U.mac U.verify) (fun s => s = .index) U.mac K.cast
      (U.accepts K M) (fun a b => K.E.val M .message a = K.E.val M .message b) ∧
    U.preprocess K = some [φ] ∧ ∀ ρ, ¬ M.truth (Fm.eval M ρ φ) := by
  refine ⟨KD, M, U .mac, known, printed, _, falseAx', rfl, rfl, ⟨logical _ _, fun _ => ⟨.atom 0, fun _ => ⟨0, rfl⟩⟩, ord_trans, prot _,
    good _, own _, nofun, .inl nofun, built _, fun _ _ => ⟨noExec _ _, noExec _ _⟩, nofun, ?_, nofun⟩, rfl,
    unforgeable .mac part_key part_main (acc_mac true) (fun _ => rfl), rfl, ?_⟩
  · intro f _ _ _ h
    cases f <;> simp [kind] at h
  · intro ρ h
    obtain ⟨u, _, hu⟩ := h (.node .g [theKey]) nofun (.inl ⟨rfl, rfl⟩)
    obtain ⟨d, hd, ht⟩ := hu _ (List.mem_cons_of_mem _ (List.mem_singleton_self _))
    rw [Fm.evals, Fm.evals, List.mem_singleton] at hd
    subst hd
    have := ht _ (List.mem_singleton_self _)
    have this : Dep.Tm.node Z.mac [u, theKey] = .node .g [theKey] := this
    simp at this

end Ex
end Disc
end CV
