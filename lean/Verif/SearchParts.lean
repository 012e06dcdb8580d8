import Verif.SearchProps
import Verif.DepsProps
import Verif.FreeModel
set_option linter.unusedSimpArgs false
/-
The ways of descending into terms, and sufficient conditions for the hypotheses of the completeness
theorems C25 and C26.
-/
namespace CV
namespace Dep
open Fm
variable {F D : Type}

/-! ### What is a part of a term, for each way of descending -/

/-- SPECIFICATION. `a` is an argument of `t`. -/
inductive ArgOf : Fm F → Fm F → Prop
  | mk {f args a} (h : a ∈ args) : ArgOf (.app f args) a

/-- SPECIFICATION. The parts of a term in which a key occurs otherwise than as the key of `mac` or `verify`:
all arguments, except what follows the message of `mac`, or the signature and message of `verify`, when the
key is (or may become, being a variable) the cast of a name. -/
inductive KeyPart (mac verify cast : F) : Fm F → Fm F → Prop
  | other {f args a} (h1 : f ≠ mac) (h2 : f ≠ verify) (h : a ∈ args) : KeyPart mac verify cast (.app f args) a
  | macMsg {args a} (h : a ∈ args.take 1) : KeyPart mac verify cast (.app mac args) a
  | macKey {args a g as} (hk : args[1]? = some (.app g as)) (hg : g ≠ cast) (h : a ∈ args) :
      KeyPart mac verify cast (.app mac args) a
  | verMsg {args a} (h : a ∈ args.take 2) : KeyPart mac verify cast (.app verify args) a
  | verKey {args a g as} (hk : args[2]? = some (.app g as)) (hg : g ≠ cast) (h : a ∈ args) :
      KeyPart mac verify cast (.app verify args) a

/-- SPECIFICATION. The parts of a term in which messages are authenticated: all arguments, except that the
`mac` being verified does not count (its arguments do). -/
inductive MainPart (mac verify : F) : Fm F → Fm F → Prop
  | other {f args a} (h1 : f ≠ verify) (h : a ∈ args) : MainPart mac verify (.app f args) a
  | message {sig m k} : MainPart mac verify (.app verify [sig, m, k]) m
  | key {sig m k} : MainPart mac verify (.app verify [sig, m, k]) k
  | sig {g as m k} (hg : g ≠ mac) : MainPart mac verify (.app verify [.app g as, m, k]) (.app g as)
  | macArg {as m k a} (h : a ∈ as) : MainPart mac verify (.app verify [.app mac as, m, k]) a

/-- SPECIFICATION. The same with `hmac`, where comparing with a `mac` also verifies it: neither does a `mac` that is
a side of an equality count. -/
inductive HmacPart (eq eqTa mac verify : F) : Fm F → Fm F → Prop
  | main {f args a} (h1 : f ≠ eq) (h2 : f ≠ eqTa) (h : MainPart mac verify (.app f args) a) :
      HmacPart eq eqTa mac verify (.app f args) a
  | side {f l r g as} (hf : f = eq ∨ f = eqTa) (h : Fm.app g as = l ∨ Fm.app g as = r) (hg : g ≠ mac) :
      HmacPart eq eqTa mac verify (.app f [l, r]) (.app g as)
  | macArg {f l r as a} (hf : f = eq ∨ f = eqTa) (h : Fm.app mac as = l ∨ Fm.app mac as = r) (ha : a ∈ as) :
      HmacPart eq eqTa mac verify (.app f [l, r]) a

/-- The parts the code descends into with `hmac`: a side of an equality only when no side is (or may become,
being a variable) a `mac`. -/
inductive HmacSeen (eq eqTa mac verify : F) : Fm F → Fm F → Prop
  | main {f args a} (h1 : f ≠ eq) (h2 : f ≠ eqTa) (h : MainPart mac verify (.app f args) a) :
      HmacSeen eq eqTa mac verify (.app f args) a
  | side {f a g as g' as'} (hf : f = eq ∨ f = eqTa) (hg : g ≠ mac) (hg' : g' ≠ mac)
      (h : a = .app g as ∨ a = .app g' as') : HmacSeen eq eqTa mac verify (.app f [.app g as, .app g' as']) a
  | macArg {f l r as a} (hf : f = eq ∨ f = eqTa) (h : Fm.app mac as = l ∨ Fm.app mac as = r) (ha : a ∈ as) :
      HmacSeen eq eqTa mac verify (.app f [l, r]) a

theorem ArgOf.down : Descends (Aux.default s : Aux F) ArgOf where
  var v a h := by cases h
  vars := by
    rintro _ _ ⟨h⟩ v hv
    exact vars_arg h hv
  down := by
    rintro _ _ ⟨h⟩
    refine .inr fun θ => ?_
    simp only [Aux.default, Subst.apply, Subst.applys_eq, Fm.args]
    exact List.mem_map_of_mem h

theorem default_shrinks (s : Srt) : Shrinks (Aux.default s : Aux F) := by
  intro t a h
  cases t with
  | var v => simp [Aux.default, Fm.args] at h
  | app f args => exact ⟨fun hn => hn.arg h, fun _ hv => vars_arg h hv⟩
  | quant q vs b =>
    simp only [Aux.default, Fm.args, List.mem_singleton] at h
    subst h
    exact ⟨fun hn => (by cases hn), fun v hv => by simpa [Fm.vars] using hv⟩

section
variable [DecidableEq F]

theorem isApp_apply {f : F} {t : Fm F} {θ : Subst F} (ht : isApp f t = true) : isApp f (Subst.apply θ t) = true := by
  cases t with
  | var v => simp [isApp] at ht
  | app g as => simpa [isApp, Subst.apply] using ht
  | quant q vs b => simp [isApp] at ht

theorem ufKey_shrinks (mac verify cast : F) : Shrinks (Aux.ufKey mac verify cast) := by
  intro t a h
  cases t with
  | var v => simp [Aux.ufKey] at h
  | app f args =>
    have ha : a ∈ args := by
      simp only [Aux.ufKey] at h
      split at h
      · exact List.mem_of_mem_take h
      · split at h
        · exact List.mem_of_mem_take h
        · exact h
    exact ⟨fun hn => hn.arg ha, fun _ hv => vars_arg ha hv⟩
  | quant q vs b =>
    simp only [Aux.ufKey, List.mem_singleton] at h
    subst h
    exact ⟨fun hn => (by cases hn), fun v hv => by simpa [Fm.vars] using hv⟩

omit [DecidableEq F] in
theorem KeyPart.mem {mac verify cast f : F} {args : List (Fm F)} {a : Fm F} (h : KeyPart mac verify cast (.app f args) a) : a ∈ args := by
  cases h with
  | other _ _ h => exact h
  | macMsg h => exact List.mem_of_mem_take h
  | macKey _ _ h => exact h
  | verMsg h => exact List.mem_of_mem_take h
  | verKey _ _ h => exact h

theorem KeyPart.down (mac verify cast : F) (hmv : mac ≠ verify) :
    Descends (Aux.ufKey mac verify cast) (KeyPart mac verify cast) where
  var v a h := by cases h
  vars t a h v hv := by
    cases t with
    | app f args => exact vars_arg h.mem hv
    | var _ => cases h
    | quant _ _ _ => cases h
  down t a h := by
    refine .inr fun θ => ?_
    have take_mem : ∀ (n : Nat) (args : List (Fm F)), a ∈ args.take n → Subst.apply θ a ∈ (args.map (Subst.apply θ)).take n := by
      intro n args h
      rw [← List.map_take]; exact List.mem_map_of_mem h
    cases h with
    | @other f args _ h1 h2 h =>
      simp only [Aux.ufKey, Subst.apply, Subst.applys_eq, h1, h2, false_and, if_false]
      exact List.mem_map_of_mem h
    | @macMsg args _ h =>
      simp only [Aux.ufKey, Subst.apply, Subst.applys_eq, hmv, false_and, if_false, true_and]
      split
      · exact take_mem _ _ h
      · exact List.mem_map_of_mem (List.mem_of_mem_take h)
    | @macKey args _ g as hk hg h =>
      simp only [Aux.ufKey, Subst.apply, Subst.applys_eq, hmv, false_and, if_false, true_and, List.getElem?_map, hk,
        Option.map_some, Option.any_some, isApp, hg, decide_false, Bool.false_eq_true]
      exact List.mem_map_of_mem h
    | @verMsg args _ h =>
      simp only [Aux.ufKey, Subst.apply, Subst.applys_eq, Ne.symm hmv, false_and, if_false, true_and]
      split
      · exact take_mem _ _ h
      · exact List.mem_map_of_mem (List.mem_of_mem_take h)
    | @verKey args _ g as hk hg h =>
      simp only [Aux.ufKey, Subst.apply, Subst.applys_eq, Ne.symm hmv, false_and, if_false, true_and, List.getElem?_map, hk,
        Option.map_some, Option.any_some, isApp, hg, decide_false, Bool.false_eq_true]
      exact List.mem_map_of_mem h

theorem ufMain_nexts_verify (L : Lang F) (eqTa mac verify : F) (hmac : Bool) (sig m k : Fm F) :
    (Aux.ufMain L eqTa mac verify hmac).nexts (.app verify [sig, m, k]) =
      if isApp mac sig then [m, k] ++ macArgs mac sig else [sig, m, k] := by
  simp [Aux.ufMain]

theorem ufMain_nexts_other (L : Lang F) (eqTa mac verify f : F) (args : List (Fm F)) (hf : f ≠ verify) :
    (Aux.ufMain L eqTa mac verify false).nexts (.app f args) = args := by
  simp [Aux.ufMain, hf]

theorem ufMain_nexts_short (L : Lang F) (eqTa mac verify : F) (args : List (Fm F)) (hl : args.length ≠ 3) :
    (Aux.ufMain L eqTa mac verify false).nexts (.app verify args) = args := by
  match args, hl with
  | [], _ => simp [Aux.ufMain]
  | [_], _ => simp [Aux.ufMain]
  | [_, _], _ => simp [Aux.ufMain]
  | _ :: _ :: _ :: _ :: _, _ => simp [Aux.ufMain]

theorem macArgs_sub {mac : F} {t a : Fm F} (h : a ∈ macArgs mac t) : ∃ as, t = .app mac as ∧ a ∈ as := by
  cases t with
  | var _ => simp [macArgs] at h
  | quant _ _ _ => simp [macArgs] at h
  | app g as =>
    simp only [macArgs] at h
    split at h
    · subst_vars; exact ⟨as, rfl, h⟩
    · simp at h

theorem ufMain_shrinks (L : Lang F) (eqTa mac verify : F) (hmac : Bool) : Shrinks (Aux.ufMain L eqTa mac verify hmac) := by
  intro t a h
  have one : ∀ f args, t = .app f args → a ∈ args → (NoQuant t → NoQuant a) ∧ ∀ v ∈ a.vars, v ∈ t.vars := by
    rintro f args rfl ha
    exact ⟨fun hn => hn.arg ha, fun _ hv => vars_arg ha hv⟩
  have two : ∀ f args b, t = .app f args → b ∈ args → a ∈ macArgs mac b → (NoQuant t → NoQuant a) ∧ ∀ v ∈ a.vars, v ∈ t.vars := by
    rintro f args b rfl hb ha
    obtain ⟨as, rfl, ha'⟩ := macArgs_sub ha
    exact ⟨fun hn => (hn.arg hb).arg ha', fun v hv => vars_arg hb (vars_arg ha' hv)⟩
  cases t with
  | var v => simp [Aux.ufMain] at h
  | app f args =>
    simp only [Aux.ufMain] at h
    split at h
    · split at h
      · rcases List.mem_append.1 h with h | h
        · exact one f _ rfl (List.mem_cons_of_mem _ h)
        · exact two f _ _ rfl (List.mem_cons_self ..) h
      · exact one f _ rfl h
    · split at h
      · split at h
        · split at h
          · exact one f _ rfl h
          · rcases List.mem_append.1 h with h | h
            · exact two f _ _ rfl (List.mem_cons_self ..) h
            · exact two f _ _ rfl (List.mem_cons_of_mem _ (List.mem_cons_self ..)) h
        · exact one f _ rfl h
      · exact one f _ rfl h
  | quant q vs b =>
    simp only [Aux.ufMain, List.mem_singleton] at h
    subst h
    exact ⟨fun hn => (by cases hn), fun v hv => by simpa [Fm.vars] using hv⟩

theorem ufMain_nexts_eq (L : Lang F) (eqTa mac verify f : F) (l r : Fm F) (hf : f = L.eq ∨ f = eqTa) (hv : f ≠ verify) :
    (Aux.ufMain L eqTa mac verify true).nexts (.app f [l, r]) =
      if (macArgs mac l ++ macArgs mac r).isEmpty then [l, r] else macArgs mac l ++ macArgs mac r := by
  simp [Aux.ufMain, hf, hv]

theorem ufMain_nexts_hmac (L : Lang F) (eqTa mac verify f : F) (args : List (Fm F)) (h1 : f ≠ L.eq) (h2 : f ≠ eqTa) :
    (Aux.ufMain L eqTa mac verify true).nexts (.app f args) = (Aux.ufMain L eqTa mac verify false).nexts (.app f args) := by
  simp [Aux.ufMain, h1, h2]

theorem MainPart.down (L : Lang F) (eqTa mac verify : F) :
    Descends (Aux.ufMain L eqTa mac verify false) (MainPart mac verify) where
  var v a h := by cases h
  vars t a h v hv := by
    cases h with
    | other _ h => exact vars_arg h hv
    | message => exact vars_arg (f := verify) (by simp) hv
    | key => exact vars_arg (f := verify) (by simp) hv
    | sig _ => exact vars_arg (List.mem_cons_self ..) hv
    | macArg h => exact vars_arg (List.mem_cons_self ..) (vars_arg h hv)
  down t a h := by
    refine .inr fun θ => ?_
    cases h with
    | @other f args _ h1 h =>
      simp only [Subst.apply, Subst.applys_eq]
      rw [ufMain_nexts_other _ _ _ _ _ _ h1]
      exact List.mem_map_of_mem h
    | message =>
      simp only [Subst.apply, Subst.applys_eq, List.map_cons, List.map_nil]
      rw [ufMain_nexts_verify]
      split <;> simp
    | key =>
      simp only [Subst.apply, Subst.applys_eq, List.map_cons, List.map_nil]
      rw [ufMain_nexts_verify]
      split <;> simp
    | sig hg =>
      simp only [Subst.apply, Subst.applys_eq, List.map_cons, List.map_nil]
      rw [ufMain_nexts_verify]
      simp [isApp, hg]
    | macArg h =>
      simp only [Subst.apply, Subst.applys_eq, List.map_cons, List.map_nil]
      rw [ufMain_nexts_verify]
      simp only [isApp, decide_true, if_true, macArgs]
      exact List.mem_append_right _ (List.mem_map_of_mem h)

theorem HmacSeen.down (L : Lang F) (eqTa mac verify : F) (hv : L.eq ≠ verify) (hv' : eqTa ≠ verify) :
    Descends (Aux.ufMain L eqTa mac verify true) (HmacSeen L.eq eqTa mac verify) where
  var v a h := by cases h
  vars t a h v hv := by
    cases h with
    | main _ _ h => exact (MainPart.down L eqTa mac verify).vars _ _ h v hv
    | side _ _ _ h => rcases h with rfl | rfl <;> exact vars_arg (by simp) hv
    | macArg _ h ha => rcases h with rfl | rfl <;> exact vars_arg (a := .app mac _) (by simp) (vars_arg ha hv)
  down t a h := by
    cases h with
    | @main f args _ h1 h2 h =>
      refine ((MainPart.down L eqTa mac verify).down _ _ h).imp id fun h θ => ?_
      have := h θ
      simp only [Subst.apply, Subst.applys_eq] at this ⊢
      rwa [ufMain_nexts_hmac _ _ _ _ _ _ h1 h2]
    | @side f _ g as g' as' hf hg hg' h =>
      refine .inr fun θ => ?_
      have hfv : f ≠ verify := by rcases hf with rfl | rfl <;> assumption
      simp only [Subst.apply, Subst.applys_eq, List.map_cons, List.map_nil]
      rw [ufMain_nexts_eq _ _ _ _ _ _ _ hf hfv]
      simp only [macArgs, hg, hg', if_false, List.append_nil, List.isEmpty_nil, if_true]
      rcases h with rfl | rfl <;> simp [Subst.apply, Subst.applys_eq]
    | @macArg f l r as _ hf h ha =>
      refine .inr fun θ => ?_
      have hfv : f ≠ verify := by rcases hf with rfl | rfl <;> assumption
      simp only [Subst.apply, Subst.applys_eq, List.map_cons, List.map_nil]
      rw [ufMain_nexts_eq _ _ _ _ _ _ _ hf hfv]
      have hm : Subst.apply θ a ∈ macArgs mac (Subst.apply θ l) ++ macArgs mac (Subst.apply θ r) := by
        rcases h with rfl | rfl
        · exact List.mem_append_left _ (by simp only [Subst.apply, Subst.applys_eq, macArgs, if_true]; exact List.mem_map_of_mem ha)
        · exact List.mem_append_right _ (by simp only [Subst.apply, Subst.applys_eq, macArgs, if_true]; exact List.mem_map_of_mem ha)
      split
      · rename_i h0
        rw [List.isEmpty_iff.1 h0] at hm; cases hm
      · exact hm

end

/-! ### A sufficient condition on time -/

/-- Parts are proper subterms. -/
def Proper (part : Fm F → Fm F → Prop) : Prop := ∀ t a, part t a → Relation.TransGen ArgOf t a

theorem ArgOf.proper : Proper (ArgOf : Fm F → Fm F → Prop) := fun _ _ h => .single h

theorem KeyPart.proper (mac verify cast : F) : Proper (KeyPart mac verify cast) := by
  intro t a h
  cases t with
  | app f args => exact .single ⟨h.mem⟩
  | var _ => cases h
  | quant _ _ _ => cases h

theorem MainPart.proper (mac verify : F) : Proper (MainPart mac verify) := by
  intro t a h
  cases h with
  | other _ h => exact .single ⟨h⟩
  | message => exact .single ⟨by simp⟩
  | key => exact .single ⟨by simp⟩
  | sig _ => exact .single ⟨by simp⟩
  | macArg h => exact .tail (.single ⟨List.mem_cons_self ..⟩) ⟨h⟩

theorem HmacSeen.proper (eq eqTa mac verify : F) : Proper (HmacSeen eq eqTa mac verify) := by
  intro t a h
  cases h with
  | main _ _ h => exact MainPart.proper mac verify _ _ h
  | side _ _ _ h => rcases h with rfl | rfl <;> exact .single ⟨by simp⟩
  | macArg _ h ha => rcases h with rfl | rfl <;> exact .tail (.single (.mk (a := .app mac _) (by simp))) ⟨ha⟩

/-- SPECIFICATION. A term of a step as protocols are usually written: every input and cell (and `exec`) is
called at the time point of the step itself, also in the bodies of quantifier symbols, whose arguments are
then the variables they are named after; no message or condition of another step is called. -/
inductive Own (L : Lang F) : Option (GStep F) → Fm F → Prop
  | var {o v} : Own L o (.var v)
  | app {o f args} (hm : L.kind f ≠ .mac .msg) (hc : L.kind f ≠ .mac .cond) (hq : ∀ b fr cs, L.kind f ≠ .taq b fr cs)
      (hn : o = none → L.kind f ≠ .mac .input ∧ L.kind f ≠ .mac .exec ∧ ∀ c, L.kind f ≠ .cell c)
      (ho : ∀ s, o = some s → (L.kind f = .mac .input ∨ L.kind f = .mac .exec ∨ ∃ c, L.kind f = .cell c) →
        args.getLast? = some (.app s.fn (s.vars.map .var)))
      (ha : ∀ a ∈ args, Own L o a) : Own L o (.app f args)
  | taq {s f bound free content} (h : L.kind f = .taq bound free content)
      (hv : ∀ v ∈ s.vars, v.id ∈ free.map Var.id) (hc : ∀ c ∈ content, Own L (some s) c) :
      Own L (some s) (.app f (free.map .var))
  | quiet {o f bound free content args} (h : L.kind f = .taq bound free content) (ha : ∀ a ∈ args, Own L o a)
      (hc : ∀ c ∈ content, Own L none c) : Own L o (.app f args)

theorem Own.argOf {L : Lang F} {o : Option (GStep F)} {t a : Fm F} (h : Own L o t) (ha : ArgOf t a) : Own L o a := by
  cases ha with
  | mk ha =>
    cases h with
    | app _ _ _ _ _ h => exact h _ ha
    | taq _ _ _ => obtain ⟨v, _, rfl⟩ := List.mem_map.1 ha; exact .var
    | quiet _ h _ => exact h _ ha

theorem Own.sub {L : Lang F} {o : Option (GStep F)} {t a : Fm F} (h : Own L o t) (ha : Relation.TransGen ArgOf t a) : Own L o a := by
  induction ha with
  | single ha => exact h.argOf ha
  | tail _ ha ih => exact ih.argOf ha

theorem Own.notStep {L : Lang F} {o : Option (GStep F)} {f : F} {args : List (Fm F)} (h : Own L o (.app f args)) :
    L.kind f ≠ .mac .msg ∧ L.kind f ≠ .mac .cond := by
  generalize ht : Fm.app f args = t at h
  cases h with
  | var => cases ht
  | app h1 h2 _ _ _ _ => cases ht; exact ⟨h1, h2⟩
  | taq h _ _ => cases ht; rw [h]; exact ⟨nofun, nofun⟩
  | quiet h _ _ => cases ht; rw [h]; exact ⟨nofun, nofun⟩

theorem Own.calls {L : Lang F} {steps : List (GStep F)} {M : Str F D} {part : Fm F → Fm F → Prop} (hp : Proper part)
    {s : GStep F} {t : Fm F} {σ : Valn D} (h : Own L (some s) t) {r : MacroRef F} {T : D}
    (hc : Calls L steps M part (t, σ) r T) : T = s.time M σ := by
  have key : ∀ y, Relation.ReflTransGen (Local L steps M part) (t, σ) y →
      ∃ o, Own L o y.1 ∧ ∀ s', o = some s' → s'.time M y.2 = s.time M σ := by
    intro y hy
    induction hy with
    | refl => exact ⟨some s, h, fun s' e => by cases e; rfl⟩
    | @tail y z _ hyz ih =>
      obtain ⟨o, h1, h2⟩ := ih
      rcases hyz with hl | hl
      · cases hl with
        | part hpa => exact ⟨o, h1.sub (hp _ _ hpa), h2⟩
        | @taq f args bound free content c τ σ' hk hc hf hb =>
          cases h1 with
          | app _ _ hq _ _ _ => exact absurd hk (hq _ _ _)
          | quiet hk' _ hc' =>
            rw [hk] at hk'; cases hk'
            exact ⟨none, hc' _ hc, fun s' e => by cases e⟩
          | @taq s₀ _ _ _ _ hk' hv hc' =>
            rw [hk] at hk'; cases hk'
            refine ⟨some s₀, hc' _ hc, ?_⟩
            intro s' e
            cases e
            rw [← h2 s₀ rfl]
            simp only [GStep.time]
            congr 1
            apply List.map_congr_left
            intro v hv'
            obtain ⟨w, hw, e⟩ := List.mem_map.1 (hv v hv')
            rw [List.map_map] at hf
            have := List.map_inj_left.1 hf w hw
            simp only [Function.comp, eval] at this
            rw [← e]; exact this
      · cases hl with
        | msg hk _ _ _ => exact absurd hk h1.notStep.1
        | cond hk _ _ _ => exact absurd hk h1.notStep.2
  obtain ⟨y, hy, hca⟩ := hc
  obtain ⟨o, h1, h2⟩ := key y hy
  have fin : ∀ (f : F) (args : List (Fm F)) (o' : Fm F) (τ : Valn D), y = (.app f args, τ) → args.getLast? = some o' →
      (L.kind f = .mac .input ∨ L.kind f = .mac .exec ∨ ∃ c, L.kind f = .cell c) → eval M τ o' = s.time M σ := by
    rintro f args o' τ rfl hl hk
    cases h1 with
    | app _ _ _ hn ho _ =>
      cases o with
      | none =>
        obtain ⟨n1, n2, n3⟩ := hn rfl
        rcases hk with hk | hk | ⟨c, hk⟩
        · exact absurd hk n1
        · exact absurd hk n2
        · exact absurd hk (n3 c)
      | some s' =>
        have := ho s' rfl hk
        rw [hl] at this
        cases this
        rw [← h2 s' rfl]
        simp only [eval, evals_eq, List.map_map, GStep.time]
        rfl
    | taq hk' _ _ => rcases hk with hk | hk | ⟨c, hk⟩ <;> rw [hk] at hk' <;> cases hk'
    | quiet hk' _ _ => rcases hk with hk | hk | ⟨c, hk⟩ <;> rw [hk] at hk' <;> cases hk'
  cases hca with
  | input hk ho => exact fin _ _ _ _ rfl ho (.inl hk)
  | exec hk ho => exact fin _ _ _ _ rfl ho (.inr (.inl hk))
  | cell hk ho => exact fin _ _ _ _ rfl ho (.inr (.inr ⟨_, hk⟩))

/-- The protocol is written in the usual way. -/
structure OwnProt (L : Lang F) (steps : List (GStep F)) (cells : List (GCell F)) : Prop where
  message : ∀ s ∈ steps, Own L (some s) s.message
  condition : ∀ s ∈ steps, Own L (some s) s.condition
  content : ∀ c ∈ cells, ∀ a ∈ c.assigns, Own L (some a.step) a.content

/-- For a protocol written in the usual way, time is respected. -/
theorem OwnProt.timed {L : Lang F} {steps : List (GStep F)} {cells : List (GCell F)} (h : OwnProt L steps cells) (M : Str F D)
    (part : Fm F → Fm F → Prop) (hp : Proper part) (htr : ∀ a b c, Lt L M a b → Lt L M b c → Lt L M a c) :
    Timed L steps cells M part where
  trans := htr
  message s hs _ _ _ _ hc := .inr ((h.message s hs).calls hp hc)
  condition s hs _ _ _ _ hc := .inr ((h.condition s hs).calls hp hc)
  content c hc a ha _ _ _ _ hca := .inr ((h.content c hc a ha).calls hp hca)

/-! ### The dependency graph of the code is enough, when it is exact -/

theorem Mentions.of_sub {kind : F → Kind F} {t a : Fm F} {n : Node} (h : Mentions kind a n) (ha : Relation.TransGen ArgOf t a) :
    Mentions kind t n := by
  induction ha with
  | single ha => cases ha with | mk ha => exact .arg ha h
  | tail _ ha ih => cases ha with | mk ha => exact ih (.arg ha h)

/-- What an evaluation calls is mentioned. -/
theorem Own.mentions {L : Lang F} {steps : List (GStep F)} {M : Str F D} {part : Fm F → Fm F → Prop} (hp : Proper part)
    {o : Option (GStep F)} {t : Fm F} {σ : Valn D} (h : Own L o t) {r : MacroRef F} {T : D}
    (hc : Calls L steps M part (t, σ) r T) : (r = .input → Mentions L.kind t .input) ∧
      ∀ c, r = .cell c → Mentions L.kind t (.cell c.fid) := by
  obtain ⟨y, hy, hca⟩ := hc
  have key : ∀ x, Relation.ReflTransGen (Local L steps M part) x y → (∃ o, Own L o x.1) →
      (r = .input → Mentions L.kind x.1 .input) ∧ ∀ c, r = .cell c → Mentions L.kind x.1 (.cell c.fid) := by
    intro x hx
    induction hx using Relation.ReflTransGen.head_induction_on with
    | refl =>
      intro _
      cases hca with
      | input hk ho => exact ⟨fun _ => .input hk, fun c e => by cases e⟩
      | exec hk ho => exact ⟨fun e => by (cases e), fun c e => by cases e⟩
      | cell hk ho => exact ⟨fun e => by (cases e), fun c e => by cases e; exact .cell hk⟩
    | @head x z hxz _ ih =>
      rintro ⟨o, h1⟩
      rcases hxz with hl | hl
      · cases hl with
        | part hpa =>
          obtain ⟨i1, i2⟩ := ih ⟨o, h1.sub (hp _ _ hpa)⟩
          exact ⟨fun e => (i1 e).of_sub (hp _ _ hpa), fun c e => (i2 c e).of_sub (hp _ _ hpa)⟩
        | @taq f args bound free content c τ σ' hk hc hf hb =>
          have : ∃ o', Own L o' c := by
            cases h1 with
            | app _ _ hq _ _ _ => exact absurd hk (hq _ _ _)
            | quiet hk' _ hc' => rw [hk] at hk'; cases hk'; exact ⟨_, hc' _ hc⟩
            | taq hk' hv hc' => rw [hk] at hk'; cases hk'; exact ⟨_, hc' _ hc⟩
          obtain ⟨i1, i2⟩ := ih this
          exact ⟨fun e => .taq hk hc (i1 e), fun c e => .taq hk hc (i2 c e)⟩
      · cases hl with
        | msg hk _ _ _ => exact absurd hk h1.notStep.1
        | cond hk _ _ _ => exact absurd hk h1.notStep.2
  exact key _ hy ⟨o, h⟩

/-- **C26 with the graph of the code.** For a protocol written in the usual way and accepted by the graph
construction, when what assignments read is visible to it, and either no assignment reads an input or the
steps read no cell, the graph reports enough. -/
theorem OwnProt.graphOK {L : Lang F} {steps : List (GStep F)} {cells : List (GCell F)} (h : OwnProt L steps cells)
    (hvis : ∀ c ∈ cells, ∀ a ∈ c.assigns, Visible L.kind a.content)
    (hin : (∀ c ∈ cells, ∀ a ∈ c.assigns, ¬ Mentions L.kind a.content .input) ∨
      ∀ s ∈ steps, ∀ x, ¬ Mentions L.kind s.message (.cell x) ∧ ¬ Mentions L.kind s.condition (.cell x))
    (hk : ∀ f c, L.kind f = .cell c → c ∈ cells) (pg : PreGraph F)
    (hpg : AncSpec L.kind steps cells (fun r => match pg.ancestors r with
          | some a => .ok a
          | none => .notFound)) (M : Str F D) (part : Fm F → Fm F → Prop) (hp : Proper part) :
    GraphOK L steps cells pg M part := by
  have toCell : ∀ {t : Fm F} {σ : Valn D} {e : GCell F} {T : D}, Calls L steps M part (t, σ) (.cell e) T → e ∈ cells := by
    rintro t σ e T ⟨y, _, hca⟩
    cases hca with | cell hk' _ => exact hk _ _ hk'
  refine ⟨?_, ?_⟩
  · obtain ⟨a, ha, h1, _⟩ := hpg.input
    simp only [PreGraph.ancestors, AncRes.ok.injEq] at ha
    rw [ha]; exact h1
  · intro c hc
    obtain ⟨anc, ha, h1, h2, h3⟩ := hpg.cell c hc
    have hanc : pg.ancestors (.cell c) = some anc := by
      cases hq : pg.ancestors (.cell c) with
      | none => rw [hq] at ha; cases ha
      | some a => rw [hq] at ha; cases ha; rfl
    refine ⟨anc, hanc, (h3 c hc).2 .refl, ?_, ?_⟩
    · intro d hd a ha' σ e T hca
      have hd' := h2.subset hd
      refine (h3 e (toCell hca)).2 (((h3 d hd').1 hd).tail ⟨d, hd', rfl, a, ha', hvis d hd' a ha' _ ?_⟩)
      exact ((h.content d hd' a ha').mentions hp hca).2 e rfl
    · intro d hd a ha' σ T hca s hs σ' e T' hse
      have hd' := h2.subset hd
      rcases hin with hin | hin
      · exact absurd (((h.content d hd' a ha').mentions hp hca).1 rfl) (hin d hd' a ha')
      · rcases hse with hse | hse
        · exact absurd (((h.message s hs).mentions hp hse).2 e rfl) (hin s hs _).1
        · exact absurd (((h.condition s hs).mentions hp hse).2 e rfl) (hin s hs _).2

end Dep
end CV
