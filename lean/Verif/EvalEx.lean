import Verif.EvalPush
set_option linter.unusedSimpArgs false
set_option linter.unnecessarySeqFocus false
/-
A concrete problem for C32, C33 and C60: it meets the hypotheses of the theorems, and gives the counterexamples.
-/
namespace CV
namespace Ev
open Dep SmtM Fm
namespace EvEx

/-- Symbols: a constant and a function of the term algebra with their evaluated symbols, the two evaluations,
the symbols of the term algebra, the logical ones, and skolem symbols. -/
inductive Z
  | c | h | cE | hE | p | pE | evM | evC | eqT | notT | andT | iteT | allT | findT | isT
  | eq | and | or | imp | tru | not | ite | lt
  | rw (s : Srt) | sk (f : Z) (i : Nat)
  deriving DecidableEq

/-- Values: messages, bitstrings, conditions, truth values. -/
inductive V
  | msg (n : Nat) | bit (n : Nat) | cond (p : Prop) | bool (p : Prop)

def V.truth : V → Prop
  | .bool p => p
  | _ => False

def out : Z → Option Srt
  | .c | .h | .iteT | .findT => some .message
  | .cE | .hE | .evM => some .bitstring
  | .eqT | .notT | .andT | .allT | .p | .isT => some .condition
  | .evC | .eq | .and | .or | .imp | .tru | .not | .lt | .pE => some .bool
  | .ite => none
  | .rw _ => some .bool
  | .sk _ _ => some .message

def x (i : Nat) : Var := ⟨i, .message⟩
def y (i : Nat) : Var := ⟨i, .index⟩

/-- `forall y. p(x, y)`. -/
def kind : Z → EKind Z
  | .c => .base [] .message .cE
  | .h => .base [.message] .message .hE
  | .p => .base [.index, .index] .condition .pE
  | .andT => .conn [.condition, .condition] .and
  | .eqT => .eqTa
  | .notT => .notTa
  | .iteT => .ite
  | .allT => .taq .all [y 5] [y 4] (.app .p [.var (y 4), .var (y 5)])
  | .findT => .fst [x 7] [x 6] (.app .eqT [.var (x 7), .app .h [.var (x 6)]]) (.var (x 7)) (.app .c [])
  | .evM | .evC => .evaluate
  | _ => .other

def lang : Lang Z := ⟨.eq, .and, .or, .imp, .tru, .lt, fun _ => .plain, out, fun _ l => l.getLast?⟩

def evalSort : Srt → Option Srt
  | .message => some .bitstring
  | .condition => some .bool
  | _ => none

def cfg (legacy : Bool) : Cfg Z where
  L := lang
  not := .not
  ite := .ite
  evs := [(.message, .evM), (.condition, .evC)]
  evalSort := evalSort
  kind := kind
  functions := [.c, .h, .p, .andT, .eqT, .notT, .iteT, .allT, .findT, .evM, .evC]
  sorts := [.message, .condition, .index]
  symbolic := true
  noBitstring := false
  legacy := legacy
  rewriteFn := .rw
  skolem := .sk

open Classical in
/-- The structure; `b` chooses between a negation and a quantifier that are always false and the right ones.
Messages evaluate to their parity; indices are the messages 0 and 1 and `p(x, y)` says that `x` is 0. -/
noncomputable def fn (b : Bool) : Z → List V → V
  | .c, [] => .msg 0
  | .h, [.msg n] => .msg (n + 1)
  | .cE, [] => .bit 0
  | .hE, [.bit n] => .bit ((n + 1) % 2)
  | .p, [.msg n, .msg _] => .cond (n = 0)
  | .pE, [.msg n, .msg _] => .bool (n = 0)
  | .evM, [.msg n] => .bit (n % 2)
  | .evC, [.cond p] => .bool p
  | .eqT, [.msg n, .msg m] => .cond (n % 2 = m % 2)
  | .notT, [.cond p] => .cond (b = true ∧ ¬ p)
  | .andT, [.cond p, .cond q] => .cond (p ∧ q)
  | .iteT, [.cond p, a, a'] => if p then a else a'
  | .allT, [.msg n] => .cond (b = true ∧ n = 0)
  | .findT, [.msg n] => .msg (n + 1)
  | .isT, _ => .cond True
  | .eq, [a, a'] => .bool (a = a')
  | .and, l => .bool (∀ d ∈ l, d.truth)
  | .or, l => .bool (∃ d ∈ l, d.truth)
  | .imp, [a, a'] => .bool (a.truth → a'.truth)
  | .not, [a] => .bool (¬ a.truth)
  | .tru, [] => .bool True
  | .ite, [d, a, a'] => if d.truth then a else a'
  | _, _ => .bool False

def dom : Srt → V → Prop
  | .message, .msg _ => True
  | .index, .msg n => n = 0 ∨ n = 1
  | .condition, .cond _ => True
  | .bitstring, .bit _ => True
  | .bool, .bool _ => True
  | .message, _ | .index, _ | .condition, _ | .bitstring, _ | .bool, _ => False
  | _, _ => True

noncomputable def str (b : Bool) : Str Z V where
  fn := fn b
  truth := V.truth
  ofProp := .bool
  truth_ofProp _ := Iff.rfl
  dom := dom

theorem dom_msg {d : V} (h : dom .message d) : ∃ n, d = .msg n := by
  cases d <;> simp [dom] at h ⊢
theorem dom_cond {d : V} (h : dom .condition d) : ∃ p, d = .cond p := by
  cases d with
  | cond p => exact ⟨p, rfl⟩
  | _ => exact absurd h (by simp [dom])
theorem dom_idx {d : V} (h : dom .index d) : d = .msg 0 ∨ d = .msg 1 := by
  cases d <;> simp [dom] at h ⊢
  exact h

theorem logical (l b : Bool) : Logical (cfg l) (str b) := by
  refine ⟨⟨?_, ?_, ?_, ?_⟩, ?_, ?_, ?_, ?_⟩
  · intro a b; simp [cfg, lang, str, fn, V.truth]
  · intro l; simp [cfg, lang, str, fn, V.truth]
  · intro l; simp [cfg, lang, str, fn, V.truth]
  · simp [cfg, lang, str, fn, V.truth]
  · intro a b; simp [cfg, lang, str, fn, V.truth]
  · intro a; simp [cfg, lang, str, fn, V.truth]
  · intro c a b h; have h' : c.truth := h; simp [cfg, str, fn, h']
  · intro c a b h; have h' : ¬ c.truth := h; simp [cfg, str, fn, h']

theorem ok (l : Bool) : (cfg l).OK := by
  refine ⟨?_, ?_, ?_, ?_, ?_, ?_, ?_, ?_, ?_, ?_, ?_, ?_⟩
  · intro f args out ev h; cases f <;> simp [cfg, kind] at h <;> simp [cfg, lang, EvEx.out, h]
  · intro f args ev h; cases f <;> simp [cfg, kind] at h <;> simp [cfg, lang, EvEx.out]
  · intro f h; cases f <;> simp [cfg, kind] at h <;> simp [cfg, lang, EvEx.out]
  · intro f h; cases f <;> simp [cfg, kind] at h <;> simp [cfg, lang, EvEx.out]
  · intro f h; cases f <;> simp [cfg, kind] at h <;> simp [cfg, lang, EvEx.out]
  · intro f q bound free content h
    cases f <;> simp [cfg, kind] at h
    obtain ⟨rfl, rfl, rfl, rfl⟩ := h
    refine ⟨rfl, by simp [y], rfl, fun g i hg => ?_⟩
    cases hg with
    | arg ha hb => simp at ha; rcases ha with rfl | rfl <;> cases hb
  · intro f bound free cond succ fail h
    cases f <;> simp [cfg, kind] at h
    obtain ⟨rfl, rfl, rfl, rfl, rfl⟩ := h
    refine ⟨rfl, by simp [x], rfl, rfl, rfl, ?_, by simp [vars, varss], ?_⟩
    · intro t ht
      simp only [List.mem_cons, List.not_mem_nil, or_false] at ht
      rcases ht with rfl | rfl | rfl
      · refine ⟨.app (fun a ha => ?_), by simp [vars, varss], fun g i hg => ?_⟩
        · simp at ha
          rcases ha with rfl | rfl
          · exact .var _
          · exact .app (fun a ha => by simp at ha; subst ha; exact .var _)
        · cases hg with
          | arg ha hb =>
            simp at ha
            rcases ha with rfl | rfl
            · cases hb
            · cases hb with
              | arg ha hb => simp at ha; subst ha; cases hb
      · exact ⟨.var _, by simp [vars], fun g i hg => by cases hg⟩
      · refine ⟨.app (fun a ha => by cases ha), by simp [vars, varss], fun g i hg => ?_⟩
        cases hg with
        | arg ha hb => cases ha
    · intro i v hv
      cases i with
      | zero => simp at hv; subst hv; rfl
      | succ i => simp at hv
  · intro f g i j h; simp [cfg] at h; exact h
  · intro f i; simp [cfg, lang]
  · intro f i s e h
    simp only [cfg, List.lookup] at h
    split at h
    · cases h; simp [cfg]
    · split at h
      · cases h; simp [cfg]
      · cases h
  · intro f i; rfl
  · intro f i g g' h; cases g <;> simp [cfg, Cfg.evaluated, kind] at h <;> subst h <;> simp [cfg, lang]

theorem val_msg (l b : Bool) (n : Nat) : (cfg l).val (str b) .message (.msg n) = .bit (n % 2) := rfl
theorem val_cond (l b : Bool) (p : Prop) : (cfg l).val (str b) .condition (.cond p) = .bool p := rfl
theorem val_idx (l b : Bool) (d : V) : (cfg l).val (str b) .index d = d := rfl

theorem val_p (l b : Bool) (n m : Nat) :
    V.truth ((cfg l).val (str b) .condition ((str b).fn .p [.msg n, .msg m])) ↔ n = 0 := Iff.rfl
theorem val_all (l b : Bool) (n : Nat) :
    V.truth ((cfg l).val (str b) .condition ((str b).fn .allT [.msg n])) ↔ b = true ∧ n = 0 := Iff.rfl

theorem homo (l : Bool) : Homo (cfg l) (str true) := by
  refine ⟨?_, ?_, ?_, ?_, ?_, ?_, ?_⟩
  · intro f args out ev hk ds hds
    cases f <;> simp [cfg, kind] at hk
    · obtain ⟨rfl, rfl, rfl⟩ := hk
      cases hds
      rfl
    · obtain ⟨rfl, rfl, rfl⟩ := hk
      rcases hds with - | ⟨h, - | -⟩
      obtain ⟨n, rfl⟩ := dom_msg h
      show V.bit ((n + 1) % 2) = V.bit ((n % 2 + 1) % 2)
      congr 1
      omega
    · obtain ⟨rfl, rfl, rfl⟩ := hk
      rcases hds with - | ⟨h, - | ⟨h', - | -⟩⟩
      rcases dom_idx h with rfl | rfl <;> rcases dom_idx h' with rfl | rfl <;> rfl
  · intro f args ev hk ds hds
    cases f <;> simp [cfg, kind] at hk
    obtain ⟨rfl, rfl⟩ := hk
    rcases hds with - | ⟨h, - | ⟨h', - | -⟩⟩
    obtain ⟨p, rfl⟩ := dom_cond h
    obtain ⟨q, rfl⟩ := dom_cond h'
    show V.bool (p ∧ q) = V.bool (∀ d ∈ [V.bool p, V.bool q], d.truth)
    congr 1
    simp [V.truth]
  · intro f hk a b ha hb
    cases f <;> simp [cfg, kind] at hk
    obtain ⟨n, rfl⟩ := dom_msg ha
    obtain ⟨m, rfl⟩ := dom_msg hb
    show V.bool (n % 2 = m % 2) = V.bool (V.bit (n % 2) = V.bit (m % 2))
    congr 1
    simp
  · intro f hk a ha
    cases f <;> simp [cfg, kind] at hk
    obtain ⟨p, rfl⟩ := dom_cond ha
    show V.bool (true = true ∧ ¬ p) = V.bool (¬ p)
    simp
  · intro f hk c a b hc ha hb
    cases f <;> simp [cfg, kind] at hk
    obtain ⟨p, rfl⟩ := dom_cond hc
    rw [val_cond]
    exact ⟨fun h => by have h' : p := h; simp [str, fn, h'], fun h => by have h' : ¬ p := h; simp [str, fn, h']⟩
  · intro f q bound free content hk σ hσ
    cases f <;> simp [cfg, kind] at hk
    obtain ⟨rfl, rfl, rfl, rfl⟩ := hk
    have hy : ∀ d, dom .index d → (V.truth ((cfg l).val (str true) .condition ((str true).fn .p [σ 4, d])) ↔ σ 4 = .msg 0) := by
      intro d hd
      rcases dom_idx (hσ (y 4) (by simp)) with h | h <;> simp only [y] at h <;> rw [h] <;>
        rcases dom_idx hd with rfl | rfl <;> rw [val_p] <;> simp
    have h1 : ∀ d, dom .index d → Fm.eval (str true) (σ.set 5 d) (.app .p [.var (y 4), .var (y 5)]) =
        (str true).fn .p [σ 4, d] := by intro d _; rfl
    have h2 : V.truth ((cfg l).val (str true) .condition ((str true).fn .allT [σ 4])) ↔ σ 4 = .msg 0 := by
      rcases dom_idx (hσ (y 4) (by simp)) with h | h <;> simp only [y] at h <;> rw [h] <;>
        rw [val_all] <;> simp
    refine h2.trans ⟨fun h d hd => ?_, fun h => ?_⟩
    · show V.truth _
      have h3 := (hy d hd).2 h
      rw [← h1 d hd] at h3
      exact h3
    · have := h (.msg 0) (Or.inl rfl)
      have h3 : V.truth ((cfg l).val (str true) .condition (Fm.eval (str true) (σ.set 5 (.msg 0))
        (.app .p [.var (y 4), .var (y 5)]))) := this
      rw [h1 (.msg 0) (Or.inl rfl)] at h3
      exact (hy (.msg 0) (Or.inl rfl)).1 h3
  · intro f bound free cond succ fail hk σ hσ
    cases f <;> simp [cfg, kind] at hk
    obtain ⟨rfl, rfl, rfl, rfl, rfl⟩ := hk
    obtain ⟨n, hn⟩ := dom_msg (hσ (x 6) (by simp))
    simp only [x] at hn
    left
    refine ⟨σ.set 7 (.msg (n + 1)), ?_, ?_, ?_, ?_⟩
    · intro i hi
      simp only [List.map_cons, List.map_nil, List.mem_singleton, x] at hi
      simp [Valn.set, hi]
    · intro v hv; simp only [List.mem_singleton] at hv; subst hv; trivial
    · have e : Fm.eval (str true) (σ.set 7 (.msg (n + 1))) (.app .eqT [.var (x 7), .app .h [.var (x 6)]]) =
          (str true).fn .eqT [.msg (n + 1), (str true).fn .h [σ 6]] := rfl
      rw [e, hn]
      show (n + 1) % 2 = (n + 1) % 2
      rfl
    · have e : Fm.eval (str true) (σ.set 7 (.msg (n + 1))) (.var (x 7)) = .msg (n + 1) := rfl
      rw [e]
      simp only [List.map_cons, List.map_nil, x]
      rw [hn]
      rfl

theorem inhabited (b : Bool) (s : Srt) : ∃ d, (str b).dom s d := by
  cases s
  · exact ⟨.bool True, trivial⟩
  · exact ⟨.msg 0, trivial⟩
  · exact ⟨.cond True, trivial⟩
  · exact ⟨.msg 0, trivial⟩
  · exact ⟨.msg 0, trivial⟩
  · exact ⟨.bit 0, trivial⟩
  · exact ⟨.msg 0, Or.inl rfl⟩
  · exact ⟨.msg 0, trivial⟩

theorem total (l : Bool) : ∃ axs, (cfg l).generate = some axs :=
  C32_total (cfg l) (ok l) (by
    intro f hf args out ev hk
    cases f <;> simp [cfg, kind] at hk <;> obtain ⟨rfl, rfl, rfl⟩ := hk <;> simp [cfg, evalSort])

/-- The hypotheses of `C32_sound_partial` are met. -/
example : ∃ axs, (cfg false).generate = some axs ∧ axs.length = 11 ∧
    ∃ M' : Str Z V, SameExcept (IsSkolem (cfg false)) (str true) M' ∧ Logical (cfg false) M' ∧ Homo (cfg false) M' ∧
      ∀ a ∈ axs, ∀ ρ, AxTrue M' ρ a := by
  obtain ⟨axs, h⟩ := total false
  have hlen : ((cfg false).generate.map List.length) = some 11 := by rfl
  refine ⟨axs, h, ?_, C32_sound_partial (cfg false) (str true) (ok false) (logical false true) (homo false) (inhabited true)
    (fun h => by cases h) rfl axs h⟩
  rw [h] at hlen
  simpa using hlen

/-- The legacy axiom of `h`: `∀ x y. evM x = evM x → evM (h x) = evM (h y)`. -/
def legacyH : Fm Z :=
  .quant .all [x 0, x 1] (.app .imp [.app .and [.app .eq [.app .evM [.var (x 0)], .app .evM [.var (x 0)]]],
    .app .eq [.app .evM [.app .h [.var (x 0)]], .app .evM [.app .h [.var (x 1)]]]])

/-- C32 fails with `use_legacy_evaluate`: evaluation is a homomorphism, and the axiom emitted for a function of
one argument, which says that its evaluation does not depend on the argument, is false. -/
theorem C32_legacy_counterexample : Logical (cfg true) (str true) ∧ Homo (cfg true) (str true) ∧
    ∃ axs, (cfg true).generate = some axs ∧ Ax.base legacyH ∈ axs ∧ ∀ ρ, ¬ AxTrue (str true) ρ (.base legacyH) := by
  refine ⟨logical true true, homo true, ?_⟩
  obtain ⟨axs, h⟩ := total true
  refine ⟨axs, h, ?_, ?_⟩
  · have hm : ((cfg true).generate.map fun l => l[5]?) = some (some (Ax.base legacyH)) := by rfl
    rw [h] at hm
    exact List.mem_of_getElem? (Option.some.inj hm)
  · intro ρ hax
    have h1 := hax
    have h2 := h1 (.msg 0) trivial (.msg 1) trivial
    have h3 : (∀ d ∈ [V.bool (V.bit 0 = V.bit 0)], d.truth) → V.bit 1 = V.bit 0 := h2
    have h4 := h3 (by simp [V.truth])
    cases h4

/-- The same symbols, in a problem whose functions are the negation and the quantifier. -/
def cfgN : Cfg Z := { cfg false with functions := [.notT, .allT] }

/-- C60 fails for negations and quantifiers: the axioms hold in an interpretation in which the negation of a
condition that evaluates to false evaluates to false, and so does a `forall` whose body always evaluates to
true. -/
theorem C60_negation_counterexample : Logical cfgN (str false) ∧
    ∃ axs, cfgN.generate = some axs ∧ axs.length = 3 ∧ (∀ a ∈ axs, ∀ ρ, AxTrue (str false) ρ a) ∧
      (¬ V.truth (cfgN.val (str false) .condition (.cond False)) ∧
        ¬ V.truth (cfgN.val (str false) .condition ((str false).fn .notT [.cond False]))) ∧
      ∀ ρ : Valn V, ρ 4 = .msg 0 →
        quantVal (str false) .all [y 5] (fun τ => V.truth (cfgN.val (str false) .condition
          (Fm.eval (str false) τ (.app .p [.var (y 4), .var (y 5)])))) ρ ∧
        ¬ V.truth (cfgN.val (str false) .condition ((str false).fn .allT [ρ 4])) := by
  have hL := logical false false
  refine ⟨⟨hL.sem, hL.imp, hL.not, hL.ite_true, hL.ite_false⟩, [.comment "evaluate".toList,
    .base (.quant .all [⟨0, .condition⟩] (.app .imp [.app .evC [.app .notT [.var ⟨0, .condition⟩]],
      .app .not [.app .evC [.var ⟨0, .condition⟩]]])),
    .base (.quant .all [y 4] (.app .imp [.app .evC [.app .allT [.var (y 4)]],
      .quant .all [y 5] (.app .evC [.app .p [.var (y 4), .var (y 5)]])]))], rfl, rfl, ?_, ⟨?_, ?_⟩, ?_⟩
  · intro a ha ρ
    simp only [List.mem_cons, List.not_mem_nil, or_false] at ha
    rcases ha with rfl | rfl | rfl
    · trivial
    · intro d hd
      obtain ⟨p, rfl⟩ := dom_cond hd
      have : (false = true ∧ ¬ p) → ¬ p := fun h => h.2
      exact this
    · intro d hd
      have hf : ¬ V.truth ((str false).fn .evC [(str false).fn .allT [d]]) := by
        rcases dom_idx hd with rfl | rfl
        · exact fun h => Bool.noConfusion (show false = true from h.1)
        · exact fun h => Bool.noConfusion (show false = true from h.1)
      exact fun h => absurd h hf
  · exact fun h => h
  · exact fun h => Bool.noConfusion (show false = true from h.1)
  · intro ρ h
    constructor
    · intro d hd
      have e : Fm.eval (str false) (ρ.set 5 d) (.app .p [.var (y 4), .var (y 5)]) = (str false).fn .p [ρ 4, d] := rfl
      show V.truth _
      simp only [y] at e ⊢
      rw [e, h]
      rcases dom_idx hd with rfl | rfl <;> rfl
    · rw [h]
      exact fun h => Bool.noConfusion (show false = true from h.1)

/-! ## C33 -/

def sig : Sig Z
  | .c => some ([], .message)
  | .h => some ([.message], .message)
  | .p => some ([.index, .index], .condition)
  | .andT => some ([.condition, .condition], .condition)
  | .eqT => some ([.message, .message], .condition)
  | .notT => some ([.condition], .condition)
  | .iteT => some ([.condition, .message, .message], .message)
  | .allT => some ([.index], .condition)
  | .findT => some ([.message], .message)
  | .evM => some ([.message], .bitstring)
  | .evC => some ([.condition], .bool)
  | _ => none

theorem typing : Typing (cfg false) (str true) sig := by
  refine ⟨?_, ?_, ?_, ?_, ?_, ?_, ?_, ?_⟩
  · intro f args out h; cases f <;> simp [sig] at h <;> obtain ⟨rfl, rfl⟩ := h <;> rfl
  · intro f args out h ds hds
    cases f <;> simp [sig] at h <;> obtain ⟨rfl, rfl⟩ := h
    · cases hds; trivial
    · rcases hds with - | ⟨h1, - | -⟩
      obtain ⟨n, rfl⟩ := dom_msg h1
      trivial
    · rcases hds with - | ⟨h1, - | ⟨h2, - | -⟩⟩
      rcases dom_idx h1 with rfl | rfl <;> rcases dom_idx h2 with rfl | rfl <;> trivial
    · rcases hds with - | ⟨h1, - | -⟩
      obtain ⟨n, rfl⟩ := dom_msg h1
      trivial
    · rcases hds with - | ⟨h1, - | -⟩
      obtain ⟨n, rfl⟩ := dom_cond h1
      trivial
    · rcases hds with - | ⟨h1, - | ⟨h2, - | -⟩⟩
      obtain ⟨n, rfl⟩ := dom_msg h1
      obtain ⟨m, rfl⟩ := dom_msg h2
      trivial
    · rcases hds with - | ⟨h1, - | -⟩
      obtain ⟨n, rfl⟩ := dom_cond h1
      trivial
    · rcases hds with - | ⟨h1, - | ⟨h2, - | -⟩⟩
      obtain ⟨n, rfl⟩ := dom_cond h1
      obtain ⟨m, rfl⟩ := dom_cond h2
      trivial
    · rcases hds with - | ⟨h1, - | ⟨h2, - | ⟨h3, - | -⟩⟩⟩
      obtain ⟨p, rfl⟩ := dom_cond h1
      by_cases hp : p
      · simpa [str, fn, hp] using h2
      · simpa [str, fn, hp] using h3
    · rcases hds with - | ⟨h1, - | -⟩
      rcases dom_idx h1 with rfl | rfl <;> trivial
    · rcases hds with - | ⟨h1, - | -⟩
      obtain ⟨n, rfl⟩ := dom_msg h1
      trivial
  · intro f args out ev h; cases f <;> simp [cfg, kind] at h <;> obtain ⟨rfl, rfl, rfl⟩ := h <;> rfl
  · intro f args ev h; cases f <;> simp [cfg, kind] at h <;> obtain ⟨rfl, rfl⟩ := h <;> rfl
  · intro f h; cases f <;> simp [cfg, kind] at h <;> rfl
  · intro f h; cases f <;> simp [cfg, kind] at h <;> rfl
  · intro f h
    cases f <;> simp [cfg, kind] at h
    · exact ⟨_, _, rfl, rfl⟩
    · exact ⟨_, _, rfl, rfl⟩
  · intro s h; cases s <;> simp [cfg, evalSort] at h <;> rfl

/-- `∀ i:index. evC (not (h c = if p(i, i) then c else h c))`. -/
def good : Fm Z := .quant .all [y 0] (.app .evC [.app .notT [.app .eqT [.app .h [.app .c []],
  .app .iteT [.app .p [.var (y 0), .var (y 0)], .app .c [], .app .h [.app .c []]]]]])

/-- What becomes of it. -/
def goodOut : Fm Z := .quant .all [y 0] (.app .not [.app .eq [.app .hE [.app .cE []],
  .app .evM [.app .iteT [.app .p [.var (y 0), .var (y 0)], .app .c [], .app .h [.app .c []]]]]])

/-- The hypotheses of `C33_propagate_partial` are met by a formula that is changed. -/
example : (cfg false).propagate good.size good = some goodOut ∧
    PushableF (cfg false) sig (fun _ => .index) good := by
  refine ⟨by rfl, .quant (.ev rfl rfl (.fn (g := .not) rfl rfl rfl ?_))⟩
  have hc : Pushable (cfg false) sig (upd (fun _ => .index) [y 0]) (.app .c []) .message :=
    .fn (g := .cE) rfl rfl rfl (by simp)
  have hh : Pushable (cfg false) sig (upd (fun _ => .index) [y 0]) (.app .h [.app .c []]) .message :=
    .fn (g := .hE) rfl rfl rfl (by simp only [List.zip_cons_cons, List.zip_nil_right, List.mem_singleton]; rintro p rfl; exact hc)
  have hv : WS sig (upd (fun _ => .index) [y 0]) (.var (y 0)) .index := .var (y 0) rfl
  simp only [List.zip_cons_cons, List.zip_nil_right, List.mem_singleton]
  rintro p rfl
  refine .fn (g := .eq) rfl rfl rfl ?_
  simp only [List.zip_cons_cons, List.zip_nil_right, List.mem_cons, List.not_mem_nil, or_false]
  rintro p (rfl | rfl)
  · exact hh
  · refine .stop rfl (by intro q b fr c h; cases h) (.app rfl rfl ?_)
    simp only [List.zip_cons_cons, List.zip_nil_right, List.mem_cons, List.not_mem_nil, or_false]
    rintro p (rfl | rfl | rfl)
    · refine .app rfl rfl ?_
      simp only [List.zip_cons_cons, List.zip_nil_right, List.mem_cons, List.not_mem_nil, or_false]
      rintro p (rfl | rfl) <;> exact hv
    · exact hc.ws
    · exact hh.ws

/-- `∀ x:message. evC (not (x = h x))`. -/
def badVar : Fm Z := .quant .all [x 0] (.app .evC [.app .notT [.app .eqT [.var (x 0), .app .h [.var (x 0)]]]])

/-- C33 fails for variables of a sort that can be evaluated: the variable is replaced by one of the evaluated
sort and the quantifier still ranges over the values to evaluate. Here evaluation is a homomorphism, the formula
is true, and what is sent to the solver has a variable of sort bitstring bound as a message, and is worth
something else already at the first message. -/
theorem C33_variable_counterexample : Homo (cfg false) (str true) ∧ (∀ ρ, V.truth (Fm.eval (str true) ρ badVar)) ∧
    (cfg false).propagate badVar.size badVar = some (.quant .all [x 0] (.app .not [.app .eq
      [.var ⟨0, .bitstring⟩, .app .hE [.var ⟨0, .bitstring⟩]]])) ∧
    ∀ ρ, Fm.eval (str true) (Valn.set ρ 0 (.msg 0)) (.var ⟨0, .bitstring⟩ : Fm Z) ≠
      Fm.eval (str true) (Valn.set ρ 0 (.msg 0)) (.app .evM [.var (x 0)]) := by
  refine ⟨homo false, ?_, by rfl, ?_⟩
  · intro ρ d hd
    obtain ⟨n, rfl⟩ := dom_msg hd
    have h : true = true ∧ ¬ (n % 2 = (n + 1) % 2) := ⟨rfl, by omega⟩
    exact h
  · intro ρ h
    have h' : V.msg 0 = V.bit 0 := h
    cases h'

/-- `∃ z:index. evC (forall y. p(z, y))`. -/
def badAll : Fm Z := .quant .ex [y 0] (.app .evC [.app .allT [.var (y 0)]])

/-- C33 fails for quantifier symbols: the arguments are put in place of the bound variables and the parameters
are quantified, instead of the reverse. Here the formula is true and what is sent to the solver is false. -/
theorem C33_quantifier_counterexample : Homo (cfg false) (str true) ∧
    ∃ φ, (cfg false).propagate badAll.size badAll = some φ ∧
      ∀ ρ, V.truth (Fm.eval (str true) ρ badAll) ∧ ¬ V.truth (Fm.eval (str true) ρ φ) := by
  refine ⟨homo false, .quant .ex [y 0] (.quant .all [y 4] (.app .pE [.var (y 4), .var (y 0)])), by rfl, fun ρ => ⟨?_, ?_⟩⟩
  · refine ⟨.msg 0, Or.inl rfl, ?_⟩
    have h : true = true ∧ (0 : Nat) = 0 := ⟨rfl, rfl⟩
    exact h
  · rintro ⟨d, hd, h⟩
    have h1 := h (.msg 1) (Or.inr rfl)
    rcases dom_idx hd with rfl | rfl
    · have h2 : (1 : Nat) = 0 := h1
      cases h2
    · have h2 : (1 : Nat) = 0 := h1
      cases h2

/-- The hypotheses of `C33_quantifier_panic` are met: a quantifier with one bound variable and one parameter
applied to nothing does not occur, one with one bound variable and no parameter does. -/
example : ({ cfg false with kind := fun f => if f = .isT then .taq .all [y 5] [] (.app .p [.var (y 5), .var (y 5)]) else kind f } : Cfg Z).propagate 100
    (.app .evC [.app .isT []]) = none :=
  C33_quantifier_panic (bound := [y 5]) rfl rfl (by decide)

end EvEx
end Ev
end CV
