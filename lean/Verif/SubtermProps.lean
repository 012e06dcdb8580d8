import Verif.Subterm
import Verif.CryptoProps
import Verif.ExistProps
set_option linter.unusedSimpArgs false
/-
C46, C63: the axioms that define the subterm predicates are true when these are read as the occurrence of a value
in another.
-/
namespace CV
namespace Cry
open Dep SmtM Ev Fm
variable {F D : Type}

/-! ## Specification -/

/-- SPECIFICATION. What the value of `f` at `l` is computed from, when `f` is a quantifier symbol or a macro. -/
inductive Opens (L : Lang F) (steps : List (GStep F)) (M : Str F D) : F → List D → Clo F D → Prop
  | taq {f l bound free content c σ} (h : L.kind f = .taq bound free content) (hc : c ∈ content)
      (hf : free.map (fun v => σ v.id) = l) (hb : InDom M bound σ) : Opens L steps M f l (c, σ)
  | msg {f s σ} (h : L.kind f = .mac .msg) (hs : s ∈ steps) (hd : InDom M s.vars σ) :
      Opens L steps M f [s.time M σ] (s.message, σ)
  | cond {f s σ} (h : L.kind f = .mac .cond) (hs : s ∈ steps) (hd : InDom M s.vars σ) :
      Opens L steps M f [s.time M σ] (s.condition, σ)
  | input {f l T y} (h : L.kind f = .mac .input) (hT : l.getLast? = some T) (hy : Yields L steps M .input T y) :
      Opens L steps M f l y
  | exec {f l T y} (h : L.kind f = .mac .exec) (hT : l.getLast? = some T) (hy : Yields L steps M .exec T y) :
      Opens L steps M f l y
  | cell {f l c T y} (h : L.kind f = .cell c) (hT : l.getLast? = some T) (hy : Yields L steps M (.cell c) T y) :
      Opens L steps M f l y

/-- SPECIFICATION. The value `n` occurs in the value `d`: it is `d`, or occurs in a part of `d`, or in what `d` is
computed from. `vp f l a`: `a` is a part of the value of `f` at `l`. `follow`: the symbols that are opened. -/
inductive Contains (L : Lang F) (steps : List (GStep F)) (M : Str F D) (vp : F → List D → D → Prop) (follow : F → Prop)
    (n : D) : D → Prop
  | here : Contains L steps M vp follow n n
  | part {f l a} (h : vp f l a) (ha : Contains L steps M vp follow n a) : Contains L steps M vp follow n (M.fn f l)
  | opened {f l y} (hf : follow f) (h : Opens L steps M f l y) (hy : Contains L steps M vp follow n (Fm.eval M y.2 y.1)) :
      Contains L steps M vp follow n (M.fn f l)

/-- SPECIFICATION. The structures considered: the symbols `S` are free constructors; `ta` are the symbols of the term
algebra, `srt` the sort of the values searched for, all of them built by a symbol of that sort; the sorts `gr` (index,
time points, …) are those of values that are not built by such symbols, and steps, assignments and quantifiers only
bind variables of these sorts. -/
structure World (K : Pbl F) (M : Str F D) (S ta : F → Prop) (srt : Srt) (gr : Srt → Prop) : Prop where
  free : ∀ f g l l', S f → S g → M.fn f l = M.fn g l' → f = g ∧ l = l'
  ta_S : ∀ f, ta f → S f
  built : ∀ d, M.dom srt d → ∃ g l, S g ∧ K.E.L.out g = some srt ∧ d = M.fn g l
  atoms : ∀ s d, gr s → M.dom s d → ∀ f l, ta f ∨ (S f ∧ K.E.L.out f = some srt) → d ≠ M.fn f l
  opens : ∀ f, K.E.L.kind f ≠ .plain → (∀ s, K.E.L.kind f ≠ .step s) → ta f
  step : ∀ s ∈ K.steps, Over S s.message ∧ Over S s.condition ∧ ∀ v ∈ s.vars, gr v.sort
  assign : ∀ c ∈ K.cells, ∀ a ∈ c.assigns, Over S a.content ∧ ∀ v ∈ a.step.vars ++ a.fresh, gr v.sort
  taq : ∀ f b fr cs, K.E.L.kind f = .taq b fr cs → (∀ c ∈ cs, Over S c) ∧ ∀ v ∈ b, gr v.sort

/-- SPECIFICATION. The contents of the steps, of the assignments and of the quantifier symbols are made of the symbols
`S`, and only bind variables of the sorts `gr`. -/
structure Bodies (K : Pbl F) (S : F → Prop) (gr : Srt → Prop) : Prop where
  step : ∀ s ∈ K.steps, Over S s.message ∧ Over S s.condition ∧ ∀ v ∈ s.vars, gr v.sort
  assign : ∀ c ∈ K.cells, ∀ a ∈ c.assigns, Over S a.content ∧ ∀ v ∈ a.step.vars ++ a.fresh, gr v.sort
  taq : ∀ f b fr cs, K.E.L.kind f = .taq b fr cs → (∀ c ∈ cs, Over S c) ∧ ∀ v ∈ b, gr v.sort

/-- The parts of the value of a term are the values of the parts of the term, or are in the value of one of its
variables. -/
def Parts (M : Str F D) (S : F → Prop) (vp : F → List D → D → Prop) (part : Fm F → Fm F → Prop) : Prop :=
  ∀ f args τ a, Over S (.app f args) → vp f (args.map (Fm.eval M τ)) a →
    (∃ b, part (.app f args) b ∧ Fm.eval M τ b = a) ∨
    ∃ v ∈ (Fm.app f args).vars, τ v.id = a ∨ ∃ g l, τ v.id = M.fn g l ∧ vp g l a

/-- The predicate is read as the occurrence of values. -/
def Reads (K : Pbl F) (M : Str F D) (vp : F → List D → D → Prop) (follow : F → Prop) (Sb : Sub F) : Prop :=
  Sb.sound = true ∧ ∀ o f, Sb.sym o = some f → ∀ x d, M.dom Sb.A.sort x →
    (M.truth (M.fn f [x, d]) ↔ Contains K.E.L K.steps M vp follow x d)

/-- SPECIFICATION. What is assumed of a subterm predicate `Sb` that unfolds macros as `fl` says: it is read as the
occurrence of values, its parts of values correspond to its parts of terms, and it looks at all the arguments of
quantifier symbols. -/
structure SubOK (K : Pbl F) (M : Str F D) (S ta : F → Prop) (vp : F → List D → D → Prop) (follow : F → Prop)
    (part : Fm F → Fm F → Prop) (Sb : Sub F) (fl : Flags) : Prop where
  reads : Reads K M vp follow Sb
  vp_ta : ∀ f l a, vp f l a → ta f
  parts : Parts M S vp part
  qargs : ∀ f b fr cs, K.E.L.kind f = .taq b fr cs → ∀ args, ∀ a ∈ args, part (.app f args) a
  proper : Proper part
  shrinks : Shrinks Sb.A
  descends : Descends Sb.A part
  flags : (fl = .all) ∨ (fl.taq = true ∧ ∀ f, follow f → ∃ b fr cs, K.E.L.kind f = .taq b fr cs)

/-- SPECIFICATION. What is assumed of the answers about symbols and sorts: `dflt` and `ta` are symbols of the term
algebra, the former not macros nor quantifiers; the sorts that are not of the term algebra are those of `gr`; the
parts of the value of a default symbol are its arguments, unless it is ignored. -/
structure InfoOK (K : Pbl F) (I : Info F) (ta : F → Prop) (gr : Srt → Prop) (srt : Srt) (vp : F → List D → D → Prop)
    (ignored : List F) : Prop where
  dflt : ∀ f, I.dflt f = true → ta f ∧ K.E.L.kind f = .plain
  ta : ∀ f, I.ta f = true → ta f
  sorts : ∀ s ∈ K.E.sorts, I.taSort s = false → s ≠ srt → gr s
  args : ∀ f, I.dflt f = true → f ∉ ignored → ∀ l a, vp f l a → a ∈ l

/-- SPECIFICATION. What is assumed of a macro or quantifier symbol: it is not `exec`, its arguments are of the sorts
`gr`, and the variables introduced by the search are not those of the axiom. -/
def SpecialOK [DecidableEq F] (K : Pbl F) (I : Info F) (gr : Srt → Prop) (Sb : Sub F) (fl : Flags) (keepGuard : Bool) (f : F) :
    Prop :=
  K.E.L.kind f ≠ .mac .exec ∧ ∀ ss, I.insort f = some ss → (∀ s ∈ ss, gr s) ∧
    NoClash (K.search Sb keepGuard) fl [(.app f ((K.spVars I ss).map .var), [])]
      (fun i => i ∈ (K.spVars I ss ++ [K.spX I Sb]).map Var.id)

/-- SPECIFICATION. All arguments of a symbol of the term algebra are parts of its value. -/
def Every (ta : F → Prop) (f : F) (l : List D) (a : D) : Prop := ta f ∧ a ∈ l

/-- SPECIFICATION. What is assumed of names: their symbols are not of the term algebra, the cast of a name is a message,
and a message that evaluates as a name contains it. -/
structure NamesOK (K : Pbl F) (M : Str F D) (ta : F → Prop) : Prop where
  names : ∀ g, K.E.L.out g = some .name → ¬ ta g
  cast : ta K.cast ∧ K.E.L.kind K.cast = .plain ∧ K.E.L.out K.cast = some .message
  typed : ∀ n, M.dom .name n → M.dom .message (M.fn K.cast [n])
  fresh : ∀ n m, M.dom .name n → M.dom .message m → K.E.val M .message (M.fn K.cast [n]) = K.E.val M .message m →
    Contains K.E.L K.steps M (Every ta) (fun _ => True) n m

/-! ## Lemmas -/

theorem evals_map (M : Str F D) (ρ : Valn D) (l : List (Fm F)) : evals M ρ l = l.map (Fm.eval M ρ) := evals_eq M ρ l

theorem Opens.kind {L : Lang F} {steps : List (GStep F)} {M : Str F D} {f : F} {l : List D} {y : Clo F D}
    (h : Opens L steps M f l y) : L.kind f ≠ .plain ∧ ∀ s, L.kind f ≠ .step s := by
  cases h <;> simp_all

/-- `Contains`, with a bound on the number of steps. -/
inductive Within (L : Lang F) (steps : List (GStep F)) (M : Str F D) (vp : F → List D → D → Prop) (follow : F → Prop)
    (n : D) : Nat → D → Prop
  | here {k} : Within L steps M vp follow n k n
  | part {k f l a} (h : vp f l a) (ha : Within L steps M vp follow n k a) : Within L steps M vp follow n (k + 1) (M.fn f l)
  | opened {k f l y} (hf : follow f) (h : Opens L steps M f l y) (hy : Within L steps M vp follow n k (Fm.eval M y.2 y.1)) :
      Within L steps M vp follow n (k + 1) (M.fn f l)

theorem Contains.within {L : Lang F} {steps : List (GStep F)} {M : Str F D} {vp : F → List D → D → Prop} {follow : F → Prop}
    {n d : D} (h : Contains L steps M vp follow n d) : ∃ k, Within L steps M vp follow n k d := by
  induction h with
  | here => exact ⟨0, .here⟩
  | part h _ ih => obtain ⟨k, hk⟩ := ih; exact ⟨k + 1, .part h hk⟩
  | opened hf h _ ih => obtain ⟨k, hk⟩ := ih; exact ⟨k + 1, .opened hf h hk⟩

theorem Within.contains {L : Lang F} {steps : List (GStep F)} {M : Str F D} {vp : F → List D → D → Prop} {follow : F → Prop}
    {n d : D} {k : Nat} (h : Within L steps M vp follow n k d) : Contains L steps M vp follow n d := by
  induction h with
  | here => exact .here
  | part h _ ih => exact .part h ih
  | opened hf h _ ih => exact .opened hf h ih

section
variable {K : Pbl F} {M : Str F D} {S ta : F → Prop} {srt : Srt} {gr : Srt → Prop} {vp : F → List D → D → Prop}
  {follow : F → Prop} {part : Fm F → Fm F → Prop}

/-- Nothing occurs in the values of the sorts `gr`. -/
theorem World.none_in (W : World K M S ta srt gr) (hvp : ∀ f l a, vp f l a → ta f) {s : Srt} {n d : D} (hs : gr s)
    (hd : M.dom s d) (hn : M.dom srt n) : ¬ Contains K.E.L K.steps M vp follow n d := by
  intro h
  cases h with
  | here =>
    obtain ⟨g, l, h1, h2, rfl⟩ := W.built n hn
    exact W.atoms s _ hs hd g l (.inr ⟨h1, h2⟩) rfl
  | part h _ => exact W.atoms s _ hs hd _ _ (.inl (hvp _ _ _ h)) rfl
  | opened _ h _ => exact W.atoms s _ hs hd _ _ (.inl (W.opens _ h.kind.1 h.kind.2)) rfl

theorem Over.transArg {t a : Fm F} (h : Relation.TransGen ArgOf t a) (ht : Over S t) : Over S a := by
  induction h with
  | single h => cases h with | mk h => cases ht with | app _ ha => exact ha _ h
  | tail _ h ih => cases h with | mk h => cases ih with | app _ ha => exact ha _ h

theorem vars_transArg {t a : Fm F} (h : Relation.TransGen ArgOf t a) {v : Var} (hv : v ∈ a.vars) : v ∈ t.vars := by
  induction h with
  | single h => cases h with | mk h => exact vars_arg h hv
  | tail _ h ih => cases h with | mk h => exact ih (vars_arg h hv)

/-- What a macro or quantifier symbol opens to is made of constructors, and its variables are bound by it or are
the parameters of the quantifier. -/
theorem Bodies.content (W : Bodies K S gr) (hp : ProtOK K.E.L K.steps K.cells) {f : F} {l : List D} {y : Clo F D}
    (h : Opens K.E.L K.steps M f l y) :
    Over S y.1 ∧ ∀ v ∈ y.1.vars, (∃ s, gr s ∧ M.dom s (y.2 v.id)) ∨ (y.2 v.id ∈ l ∧ ∃ b fr cs, K.E.L.kind f = .taq b fr cs) := by
  have bnd : ∀ (vs : List Var) (σ : Valn D), InDom M vs σ → (∀ v ∈ vs, gr v.sort) → ∀ i, i ∈ vs.map Var.id → ∃ s, gr s ∧ M.dom s (σ i) := by
    intro vs σ hd hg i hi
    obtain ⟨w, hw, rfl⟩ := List.mem_map.1 hi
    exact ⟨w.sort, hg w hw, hd w hw⟩
  have stp : ∀ s ∈ K.steps, ∀ σ, InDom M s.vars σ →
      (Over S s.message ∧ ∀ v ∈ s.message.vars, ∃ s, gr s ∧ M.dom s (σ v.id)) ∧
      (Over S s.condition ∧ ∀ v ∈ s.condition.vars, ∃ s, gr s ∧ M.dom s (σ v.id)) := by
    intro s hs σ hd
    obtain ⟨h1, h2, h3⟩ := W.step s hs
    exact ⟨⟨h1, fun v hv => bnd _ _ hd h3 _ ((hp.message s hs).2 v hv)⟩, ⟨h2, fun v hv => bnd _ _ hd h3 _ ((hp.condition s hs).2 v hv)⟩⟩
  have yld : ∀ r T y, (∀ c, r = .cell c → c ∈ K.cells) → Yields K.E.L K.steps M r T y →
      Over S y.1 ∧ ∀ v ∈ y.1.vars, ∃ s, gr s ∧ M.dom s (y.2 v.id) := by
    intro r T y hc hy
    cases hy with
    | inputMsg hs hd _ => exact (stp _ hs _ hd).1
    | inputCond hs hd _ => exact (stp _ hs _ hd).2
    | exec hs hd _ => exact (stp _ hs _ hd).2
    | cell ha hd _ =>
      obtain ⟨h1, h2⟩ := W.assign _ (hc _ rfl) _ ha
      exact ⟨h1, fun v hv => bnd _ _ hd h2 _ ((hp.content _ (hc _ rfl) _ ha).2 v hv)⟩
  have lft : ∀ {t : Fm F} {σ : Valn D}, (Over S t ∧ ∀ v ∈ t.vars, ∃ s, gr s ∧ M.dom s (σ v.id)) →
      Over S t ∧ ∀ v ∈ t.vars, (∃ s, gr s ∧ M.dom s (σ v.id)) ∨ (σ v.id ∈ l ∧ ∃ b fr cs, K.E.L.kind f = .taq b fr cs) :=
    fun h => ⟨h.1, fun v hv => .inl (h.2 v hv)⟩
  cases h with
  | taq h hc hf hb =>
    refine ⟨(W.taq _ _ _ _ h).1 _ hc, fun v hv => ?_⟩
    have := ((hp.taq _ _ _ _ h).2 _ hc).2 v hv
    rw [List.map_append, List.mem_append] at this
    rcases this with hi | hi
    · right
      obtain ⟨w, hw, e⟩ := List.mem_map.1 hi
      refine ⟨?_, _, _, _, h⟩
      rw [← hf]
      exact List.mem_map.2 ⟨w, hw, by rw [e]⟩
    · exact .inl (bnd _ _ hb (W.taq _ _ _ _ h).2 _ hi)
  | msg h hs hd => exact lft (stp _ hs _ hd).1
  | cond h hs hd => exact lft (stp _ hs _ hd).2
  | input h hT hy => exact lft (yld _ _ _ (fun _ e => by cases e) hy)
  | exec h hT hy => exact lft (yld _ _ _ (fun _ e => by cases e) hy)
  | cell h hT hy => exact lft (yld _ _ _ (fun c e => by cases e; exact hp.cells _ _ h) hy)

theorem World.content (W : World K M S ta srt gr) (hp : ProtOK K.E.L K.steps K.cells) {f : F} {l : List D} {y : Clo F D}
    (h : Opens K.E.L K.steps M f l y) :
    Over S y.1 ∧ ∀ v ∈ y.1.vars, (∃ s, gr s ∧ M.dom s (y.2 v.id)) ∨ (y.2 v.id ∈ l ∧ ∃ b fr cs, K.E.L.kind f = .taq b fr cs) :=
  Bodies.content ⟨W.step, W.assign, W.taq⟩ hp h

/-- From the occurrence of a value in another to an occurrence in a term: either it is in the value of a variable,
or it is the value of a term found by the steps of `R`. -/
theorem World.occurrence (W : World K M S ta srt gr) (hp : ProtOK K.E.L K.steps K.cells) (hpr : Proper part)
    (hvp : ∀ f l a, vp f l a → ta f) (hpa : Parts M S vp part)
    (hqa : ∀ f b fr cs, K.E.L.kind f = .taq b fr cs → ∀ args, ∀ a ∈ args, part (.app f args) a) {R : Clo F D → Clo F D → Prop}
    (hR1 : ∀ t a τ, part t a → R (t, τ) (a, τ))
    (hR2 : ∀ f args τ y, follow f → Opens K.E.L K.steps M f (args.map (Fm.eval M τ)) y → R (.app f args, τ) y)
    {n : D} (hn : M.dom srt n) : ∀ k d, Within K.E.L K.steps M vp follow n k d → ∀ (t : Fm F) (ρ : Valn D), Over S t →
      Fm.eval M ρ t = d →
      (∃ g args κ, Relation.ReflTransGen R (t, ρ) (.app g args, κ) ∧ K.E.L.out g = some srt ∧
        Fm.eval M κ (.app g args) = n) ∨
      ∃ v ∈ t.vars, ∃ j ≤ k, Within K.E.L K.steps M vp follow n j (ρ v.id) := by
  intro k
  induction k using Nat.strongRecOn with
  | ind k ih =>
  intro d h t ρ ht e
  cases ht with
  | var v =>
    right
    exact ⟨v, by simp [Fm.vars], k, Nat.le_refl k, by simp only [Fm.eval] at e; rw [e]; exact h⟩
  | @app g args hg hargs =>
  have ht : Over S (.app g args) := .app hg hargs
  simp only [Fm.eval, evals_map] at e
  cases h with
  | here =>
    left
    obtain ⟨g', l', h1, h2, h3⟩ := W.built n hn
    obtain ⟨rfl, _⟩ := W.free _ _ _ _ hg h1 (e.trans h3)
    exact ⟨g, args, ρ, .refl, h2, by simpa only [Fm.eval, evals_map] using e⟩
  | @part k f l a hf ha =>
    obtain ⟨rfl, rfl⟩ := W.free _ _ _ _ hg (W.ta_S _ (hvp _ _ _ hf)) e
    rcases hpa g args ρ a ht hf with ⟨b, hb', hb⟩ | ⟨v, hv, hb⟩
    · rcases ih k (by omega) a ha b ρ (Over.transArg (hpr _ _ hb') ht) hb with ⟨g', args', κ, h1, h2, h3⟩ | ⟨v, hv, j, hj, hw⟩
      · exact .inl ⟨g', args', κ, .head (hR1 _ _ _ hb') h1, h2, h3⟩
      · exact .inr ⟨v, vars_transArg (hpr _ _ hb') hv, j, by omega, hw⟩
    · right
      rcases hb with hb | ⟨g', l', e', hb⟩
      · exact ⟨v, hv, k, by omega, by rw [hb]; exact ha⟩
      · exact ⟨v, hv, k + 1, Nat.le_refl _, by rw [e']; exact .part hb ha⟩
  | @opened k f l y hf ho hy =>
    obtain ⟨rfl, rfl⟩ := W.free _ _ _ _ hg (W.ta_S _ (W.opens _ ho.kind.1 ho.kind.2)) e
    obtain ⟨hov, hvars⟩ := W.content hp ho
    rcases ih k (by omega) _ hy y.1 y.2 hov rfl with ⟨g', args', κ, h1, h2, h3⟩ | ⟨v, hv, j, hj, hw⟩
    · exact .inl ⟨g', args', κ, .head (hR2 _ _ _ _ hf ho) h1, h2, h3⟩
    · rcases hvars v hv with ⟨s, hs, hd⟩ | hl
      · exact absurd hw.contains (W.none_in hvp hs hd hn)
      · obtain ⟨hl, qb, qf, qc, hq⟩ := hl
        obtain ⟨b, hb, eb⟩ := List.mem_map.1 hl
        rw [← eb] at hw
        rcases ih j (by omega) _ hw b ρ (hargs b hb) rfl with ⟨g', args', κ, h1, h2, h3⟩ | ⟨v, hv, j', hj', hw'⟩
        · exact .inl ⟨g', args', κ, .head (hR1 _ _ _ (hqa _ _ _ _ hq _ _ hb)) h1, h2, h3⟩
        · exact .inr ⟨v, vars_arg hb hv, j', by omega, hw'⟩

end

section
variable [DecidableEq F] {C : SearchCfg F} {cells : List (GCell F)} {M : Str F D}

/-- A visited term of the right sort whose value is that of the variable searched for gives a result that holds. -/
theorem visited_var (hsem : Sem C.L M) {x : Var} {t : Fm F} {ρ τ : Valn D} {st : UState F} (ht : C.A.unified C.L t = true)
    (hc : Compat M ρ st τ) (heq : τ x.id = Fm.eval M τ t) {res : List (Option (List Var × Fm F))} (hn : none ∉ res)
    (hres : ∀ r ∈ visitResult C (.var x) t st, r ∈ res) :
    ∃ vs φ, some (vs, φ) ∈ res ∧ quantVal M .ex vs (fun τ' => M.truth (Fm.eval M τ' φ)) ρ := by
  have hu : unifierOf C (.var x) t = some (some (Unif.oneVariable x t)) := by
    simp only [unifierOf, ht, if_true]
  have hg : unifGuard C (.var x) t (Unif.oneVariable x t) = eqFormulas C.L [(x.id, t)] := by
    simp [unifGuard, Unif.toVariable, Unif.oneVariable, Unif.asEqualities]
  unfold visitResult at hres
  rw [hu] at hres
  simp only [hg] at hres
  cases he : eqFormulas C.L [(x.id, t)] with
  | none => rw [he] at hres; exact absurd (hres none (by simp)) hn
  | some g =>
    rw [he] at hres
    have h3 := eqFormulas_truth hsem he (τ := τ) (fun p hp => by
      rw [List.mem_singleton] at hp; subst hp; exact heq)
    refine ⟨_, _, hres _ (List.mem_singleton_self _), quantVal_ex_of M _ τ ?_ _ ρ hc.off hc.dom⟩
    simp only [Lang.ands, Fm.eval, evals_map]
    rw [hsem.and]
    intro d hd
    obtain ⟨φ, hφ, rfl⟩ := List.mem_map.1 hd
    rcases List.mem_append.1 hφ with hφ | hφ
    · exact h3 φ hφ
    · split at hφ
      · simp only [Option.mem_toList] at hφ
        exact hc.guard φ hφ
      · cases hφ

/-- The search for a variable is complete. `fl`: all macros but `exec` are followed, or none is. -/
theorem search_var {part : Fm F → Fm F → Prop} {fl : Flags} {roots : List (Fm F × List Var)} {outer : Nat → Prop} {x : Var}
    (hsem : Sem C.L M) (hp : ProtOK C.L C.steps cells) (hsh : Shrinks C.A)
    (hde : Descends C.A part) (htm : Timed C.L C.steps cells M part) (hG : GraphOK C.L C.steps cells C.G M part)
    (hsub : ∀ r anc, C.G.ancestors r = some anc → ∀ d ∈ anc.cells, d ∈ cells)
    (hr : ∀ t bv, (t, bv) ∈ roots → NoQuant t ∧ VarsIn outer bv t ∧ (bv.map Var.id).Nodup)
    (hcl : NoClash C fl roots outer) (hx : outer x.id)
    {fuel : Nat} {res : List (Option (List Var × Fm F))} (hs : search C fuel (.var x) fl roots = some res) (hn : none ∉ res)
    {r : Fm F} {bv : List Var} (hroot : (r, bv) ∈ roots) {ρ ρ₀ κ : Valn D} (hoff : ∀ i, i ∉ bv.map Var.id → ρ₀ i = ρ i)
    (hdom : InDom M bv ρ₀) {f : F} {args : List (Fm F)}
    (ho : (fl = .all ∧ Occurs C.L C.steps M part MacroRef.notExec (r, ρ₀) (.app f args, κ)) ∨
      (fl.taq = true ∧ Relation.ReflTransGen (Plain C.L M part) (r, ρ₀) (.app f args, κ)))
    (hf : C.L.out f = some C.A.sort) (hv : Fm.eval M κ (.app f args) = ρ x.id) :
    ∃ vs φ, some (vs, φ) ∈ res ∧ quantVal M .ex vs (fun τ => M.truth (Fm.eval M τ φ)) ρ := by
  have hinv : ∀ t st, Elem C fl roots t st → Inv outer t st := fun t st he => inv_elem hp hsh hsub hr hcl he
  have hsearch := fun t st (he : Elem C fl roots t st) => search_elem C fuel (.var x) fl roots res hs hn he
  have h0 : Cov C fl roots M ρ (fun f => f = fl) (r, ρ₀) :=
    ⟨r, ⟨fl, bv, none⟩, ρ₀, fun v => .var v, .root hroot, rfl, ⟨hoff, hdom, fun g hg => by cases hg⟩,
      (apply_id r).symm, fun v _ => rfl⟩
  have h : (∃ v, Fm.app f args = Fm.var v) ∨ Cov C fl roots M ρ (fun _ => True) (.app f args, κ) := by
    rcases ho with ⟨rfl, ho⟩ | ⟨ht, ho⟩
    · rcases cov_occurs hp hsem hinv hcl (fun t st he => (hsearch t st he).1) hde htm hG hsub h0 ho with h | h
      · exact .inl h
      · obtain ⟨t, st, τ, θ, he, _, hc, e, hm⟩ := h
        exact .inr ⟨t, st, τ, θ, he, trivial, hc, e, hm⟩
    · have key : ∀ y, Relation.ReflTransGen (Plain C.L M part) (r, ρ₀) y →
          (∃ v, y.1 = .var v) ∨ Cov C fl roots M ρ (fun f => f = fl) y := by
        intro y hy
        induction hy with
        | refl => exact .inr h0
        | @tail y z _ hyz ih =>
          rcases ih with ⟨v, h⟩ | h
          · obtain ⟨t, κ'⟩ := y
            cases h
            cases hyz with
            | part hpa => exact absurd hpa (hde.var _ _)
          · exact cov_plain hp hinv hcl (fun t st he => (hsearch t st he).1) hde (by rintro _ rfl; exact ht) h hyz
      rcases key _ ho with h | h
      · exact .inl h
      · obtain ⟨t, st, τ, θ, he, _, hc, e, hm⟩ := h
        exact .inr ⟨t, st, τ, θ, he, trivial, hc, e, hm⟩
  rcases h with ⟨v, h⟩ | ⟨t, st, τ, θ, he, _, hc, rfl, hm⟩
  · cases h
  · have hi := hinv _ _ he
    refine visited_var hsem (unified_apply (.inl hf) θ) hc ?_ hn (hsearch _ _ he).2
    rw [eval_match (NoQuant.of_apply hi.noQuant) hm, hv]
    refine hc.off x.id (fun h' => ?_)
    obtain ⟨w, hw, e⟩ := List.mem_map.1 h'
    exact hcl.bound _ _ he w hw (e ▸ hx)

/-! ## The axioms -/

variable {K : Pbl F} {I : Info F} {S ta : F → Prop} {gr : Srt → Prop} {vp : F → List D → D → Prop} {follow : F → Prop}
  {part : Fm F → Fm F → Prop} {Sb : Sub F} {fl : Flags} {ignored : List F}

omit [DecidableEq F] in
theorem Reads.truth (hR : Reads K M vp follow Sb) {x m p : Fm F} {ρ : Valn D} (hx : M.dom Sb.A.sort (Fm.eval M ρ x))
    (h : K.sub Sb x m = some p) :
    M.truth (Fm.eval M ρ p) ↔ Contains K.E.L K.steps M vp follow (Fm.eval M ρ x) (Fm.eval M ρ m) := by
  simp only [Pbl.sub, subFormula, hR.1, if_true, Option.map_eq_some_iff] at h
  obtain ⟨f, hf, rfl⟩ := h
  simp only [Fm.eval, evals]
  exact hR.2 _ _ hf _ _ hx

/-- **C46: the axiom of a default function is true.** What occurs in `f(…)` occurs in one of the arguments, or is
`f(…)`. -/
theorem C46_function (hl : Logical K.E M) (W : World K M S ta Sb.A.sort gr) (hR : Reads K M vp follow Sb)
    (hvp : ∀ f l a, vp f l a → ta f) (hI : InfoOK K I ta gr Sb.A.sort vp ignored) {axs : List (Fm F)}
    (h : K.fnAxs I Sb ignored = some axs) (ρ : Valn D) (φ : Fm F) (hφ : φ ∈ axs) : M.truth (Fm.eval M ρ φ) := by
  obtain ⟨f, hf, h⟩ := mapO_mem h φ hφ
  simp only [List.mem_filter, Bool.not_eq_true', List.contains_eq_mem, decide_eq_false_iff_not] at hf
  obtain ⟨⟨_, hd⟩, hni⟩ := hf
  obtain ⟨hta, hk⟩ := hI.dflt f hd
  obtain ⟨ss, _, h⟩ := Option.bind_eq_some_iff.1 h
  dsimp only at h
  split at h
  swap
  · cases h
  rename_i ds p hds hp
  cases h
  rw [truth_mkForall]
  have hnd : ((sortsToVariables 1 ss ++ [(⟨0, Sb.A.sort⟩ : Var)]).map Var.id).Nodup := by
    rw [List.map_append, List.nodup_append]
    refine ⟨sortsToVariables_nodup _ _, by simp, ?_⟩
    intro a ha b hb
    rw [sortsToVariables_ids] at ha
    simp only [List.mem_map, List.mem_range, List.map_cons, List.map_nil, List.mem_singleton] at ha hb
    obtain ⟨_, _, rfl⟩ := ha
    omega
  refine quantVal_all_of M _ _ ρ hnd (fun τ _ hdom => ?_)
  have hx : M.dom Sb.A.sort (Fm.eval M τ (.var ⟨0, Sb.A.sort⟩)) := hdom ⟨0, Sb.A.sort⟩ (by simp)
  simp only [Fm.eval, evals] at hx ⊢
  rw [hl.imp]
  intro ht
  have hc := (hR.truth (x := .var ⟨0, Sb.A.sort⟩) hx hp).1 ht
  have hors : ∀ a ∈ (sortsToVariables 1 ss).map (fun v => τ v.id), Contains K.E.L K.steps M vp follow (τ 0) a →
      M.truth (Fm.eval M τ (K.E.L.ors ds)) := by
    intro a ha hca
    obtain ⟨v, hv, rfl⟩ := List.mem_map.1 ha
    obtain ⟨q, hq, hq'⟩ := mapO_mem' hds v hv
    simp only [Lang.ors, Fm.eval, evals_map]
    rw [hl.sem.or]
    exact ⟨_, List.mem_map_of_mem hq, (hR.truth (x := .var ⟨0, Sb.A.sort⟩) hx hq').2 hca⟩
  have hap : Fm.eval M τ (.app f ((sortsToVariables 1 ss).map .var)) = M.fn f ((sortsToVariables 1 ss).map (fun v => τ v.id)) := by
    simp only [Fm.eval, evals_map, List.map_map]; rfl
  rw [hap] at hc
  have hcase : (∃ a ∈ (sortsToVariables 1 ss).map (fun v => τ v.id), Contains K.E.L K.steps M vp follow (τ 0) a) ∨
      (τ 0 = M.fn f ((sortsToVariables 1 ss).map (fun v => τ v.id)) ∧ K.E.L.out f = some Sb.A.sort) := by
    simp only [Fm.eval] at hc
    generalize hd0 : M.fn f ((sortsToVariables 1 ss).map (fun v => τ v.id)) = d at hc
    cases hc with
    | here =>
      obtain ⟨g, l, h1, h2, h3⟩ := W.built _ hx
      rw [h3] at hd0
      obtain ⟨rfl, rfl⟩ := W.free _ _ _ _ (W.ta_S _ hta) h1 hd0
      exact .inr ⟨rfl, h2⟩
    | part hv ha =>
      obtain ⟨rfl, rfl⟩ := W.free _ _ _ _ (W.ta_S _ hta) (W.ta_S _ (hvp _ _ _ hv)) hd0
      exact .inl ⟨_, hI.args _ hd hni _ _ hv, ha⟩
    | opened _ ho _ =>
      obtain ⟨rfl, rfl⟩ := W.free _ _ _ _ (W.ta_S _ hta) (W.ta_S _ (W.opens _ ho.kind.1 ho.kind.2)) hd0
      exact absurd hk ho.kind.1
  have hor : ∀ a b, M.truth (M.fn K.E.L.or [a, b]) ↔ M.truth a ∨ M.truth b := by
    intro a b; rw [hl.sem.or]; simp
  have hboth : M.truth (Fm.eval M τ (.app K.E.L.or [K.E.L.ors ds,
      K.E.L.meq (.var ⟨0, Sb.A.sort⟩) (.app f ((sortsToVariables 1 ss).map .var))])) := by
    rw [Fm.eval, evals, evals, evals, hor]
    rcases hcase with ⟨a, ha, hca⟩ | ⟨e, _⟩
    · exact .inl (hors a ha hca)
    · right
      rw [Lang.meq, Fm.eval, evals, evals, evals, hl.sem.eq, hap]
      exact e
  split
  · exact hboth
  · rename_i s hs
    split
    · exact hboth
    · rename_i hne
      rcases hcase with ⟨a, ha, hca⟩ | ⟨_, h2⟩
      · exact hors a ha hca
      · rw [sortOf_app h2] at hs
        cases hs
        exact absurd rfl hne

omit [DecidableEq F] in
/-- **C46: nothing occurs in the values of the other sorts.** -/
theorem C46_not_of_sort (hl : Logical K.E M) (W : World K M S ta Sb.A.sort gr) (hR : Reads K M vp follow Sb)
    (hvp : ∀ f l a, vp f l a → ta f) {s : Srt} (hs : gr s) {φ : Fm F} (h : K.notOfSort Sb s = some φ) (ρ : Valn D) :
    M.truth (Fm.eval M ρ φ) := by
  obtain ⟨p, hp, rfl⟩ := Option.map_eq_some_iff.1 h
  rw [truth_mkForall]
  refine quantVal_all_of M _ _ ρ (by simp) (fun τ _ hdom => ?_)
  have hx : M.dom Sb.A.sort (τ 0) := hdom ⟨0, Sb.A.sort⟩ (by simp)
  have hm : M.dom s (τ 1) := hdom ⟨1, s⟩ (by simp)
  simp only [Fm.eval, evals]
  rw [hl.not, hR.truth (x := .var ⟨0, Sb.A.sort⟩) hx hp]
  exact W.none_in hvp hs hm hx

omit [DecidableEq F] in
/-- What a macro or quantifier symbol opens to, as a step of the search. -/
theorem Opens.inside {L : Lang F} {steps : List (GStep F)} {f : F} {args : List (Fm F)} {τ : Valn D}
    {y : Clo F D} (h : Opens L steps M f (args.map (Fm.eval M τ)) y) :
    Inside L steps M part (fun _ => True) (.app f args, τ) y ∧
      ((∃ b fr cs, L.kind f = .taq b fr cs) → Plain L M part (.app f args, τ) y) := by
  have last : ∀ T, (args.map (Fm.eval M τ)).getLast? = some T → ∃ o, args.getLast? = some o ∧ Fm.eval M τ o = T := by
    intro T hT
    rw [List.getLast?_map] at hT
    exact Option.map_eq_some_iff.1 hT
  generalize hl : args.map (Fm.eval M τ) = l at h
  cases h with
  | taq h hc hf hb =>
    subst hl
    exact ⟨.inl (.inl (.taq h hc hf hb)), fun _ => .taq h hc hf hb⟩
  | msg h hs hd =>
    obtain ⟨arg, rfl, e⟩ := List.map_eq_singleton_iff.1 hl
    exact ⟨.inl (.inr (.msg h hs hd e)), fun ⟨_, _, _, h'⟩ => by rw [h] at h'; cases h'⟩
  | cond h hs hd =>
    obtain ⟨arg, rfl, e⟩ := List.map_eq_singleton_iff.1 hl
    exact ⟨.inl (.inr (.cond h hs hd e)), fun ⟨_, _, _, h'⟩ => by rw [h] at h'; cases h'⟩
  | input h hT hy =>
    subst hl
    obtain ⟨o, ho, rfl⟩ := last _ hT
    exact ⟨.inr ⟨_, _, trivial, .input h ho, hy⟩, fun ⟨_, _, _, h'⟩ => by rw [h] at h'; cases h'⟩
  | exec h hT hy =>
    subst hl
    obtain ⟨o, ho, rfl⟩ := last _ hT
    exact ⟨.inr ⟨_, _, trivial, .exec h ho, hy⟩, fun ⟨_, _, _, h'⟩ => by rw [h] at h'; cases h'⟩
  | cell h hT hy =>
    subst hl
    obtain ⟨o, ho, rfl⟩ := last _ hT
    exact ⟨.inr ⟨_, _, trivial, .cell h ho, hy⟩, fun ⟨_, _, _, h'⟩ => by rw [h] at h'; cases h'⟩

omit [DecidableEq F] in
/-- **C46: the variables of the axiom of a macro are new.** They have different numbers and the sorts of the arguments,
and their numbers are greater than those of the variables written in the steps, of the variables `in` of the steps
and of the fresh variables of the assignments. (The search may still introduce them, see
`C46_capture_counterexample`.) -/
theorem C46_fresh (K : Pbl F) (I : Info F) (Sb : Sub F) (ss : List Srt) :
    ((K.spVars I ss ++ [K.spX I Sb]).map Var.id).Nodup ∧ (K.spVars I ss).map Var.sort = ss ∧
    ∀ w ∈ K.spVars I ss ++ [K.spX I Sb],
      (∀ s ∈ K.steps, ∀ v, v ∈ s.message.vars ∨ v ∈ s.condition.vars → v.id < w.id) ∧ (∀ i ∈ I.ins, i < w.id) ∧
      ∀ c ∈ K.cells, ∀ a ∈ c.assigns, ∀ v ∈ a.fresh, v.id < w.id := by
  obtain ⟨h1, h2⟩ := C05_sorts_to_variables (K.protMaxVar I + 2) ss
  have hge : ∀ i ∈ (K.spVars I ss).map Var.id, K.protMaxVar I + 2 ≤ i := by
    intro i hi
    rw [Pbl.spVars, h2] at hi
    obtain ⟨j, _, rfl⟩ := List.mem_map.1 hi
    omega
  refine ⟨?_, h1, ?_⟩
  · rw [List.map_append, List.nodup_append]
    refine ⟨?_, by simp, ?_⟩
    · rw [Pbl.spVars, h2]
      exact List.Nodup.map (fun a b h => Nat.add_right_cancel h) List.nodup_range
    · intro i hi j hj e
      have := hge i hi
      simp only [List.map_cons, List.map_nil, List.mem_singleton, Pbl.spX] at hj
      omega
  · intro w hw
    have hw' : K.protMaxVar I + 1 ≤ w.id := by
      rcases List.mem_append.1 hw with h | h
      · have := hge _ (List.mem_map_of_mem h)
        omega
      · rw [List.mem_singleton] at h
        subst h
        exact Nat.le_refl _
    have hlt : ∀ i, i ∈ I.ins ++ (K.steps.flatMap (fun s => s.message.vars ++ s.condition.vars) ++
        K.cells.flatMap (fun c => c.assigns.flatMap GAssign.fresh)).map Var.id → i < w.id := by
      intro i hi
      have h3 : i < K.protMaxVar I := by
        unfold Pbl.protMaxVar
        generalize I.ins ++ _ = l at hi ⊢
        cases hm : l.max? with
        | none => rw [List.max?_eq_none_iff] at hm; subst hm; cases hi
        | some m =>
          have := (List.max?_eq_some_iff.1 hm).2 i hi
          simp only [Option.getD_some]
          omega
      omega
    refine ⟨fun s hs v hv => hlt _ ?_, fun i hi => hlt _ (List.mem_append_left _ hi), fun c hc a ha v hv => hlt _ ?_⟩
    · refine List.mem_append_right _ (List.mem_map_of_mem (List.mem_append_left _ (List.mem_flatMap.2 ⟨s, hs, ?_⟩)))
      exact List.mem_append.2 hv
    · exact List.mem_append_right _ (List.mem_map_of_mem (List.mem_append_right _
        (List.mem_flatMap.2 ⟨c, hc, List.mem_flatMap.2 ⟨a, ha, hv⟩⟩)))

/-- The axiom of a macro or quantifier symbol is true when the predicate only holds of what occurs in the symbol. -/
theorem special_true (hS : Setting K M) (hpr : Proper part) (hsh : Shrinks Sb.A) (hde : Descends Sb.A part) {keepGuard : Bool}
    {f : F} (hf : SpecialOK K I gr Sb fl keepGuard f) {φ : Fm F} (h : K.specialAx I Sb fl keepGuard f = some φ) (ρ : Valn D)
    (H : ∀ ss p τ, I.insort f = some ss → K.sub Sb (.var (K.spX I Sb)) (.app f ((K.spVars I ss).map .var)) = some p →
      InDom M (K.spVars I ss ++ [K.spX I Sb]) τ → M.truth (Fm.eval M τ p) →
      ∃ g args κ, ((fl = .all ∧ Occurs K.E.L K.steps M part MacroRef.notExec
          (.app f ((K.spVars I ss).map .var), τ) (.app g args, κ)) ∨
        (fl.taq = true ∧ Relation.ReflTransGen (Plain K.E.L M part) (.app f ((K.spVars I ss).map .var), τ) (.app g args, κ))) ∧
        K.E.L.out g = some Sb.A.sort ∧ Fm.eval M κ (.app g args) = Fm.eval M τ (.var (K.spX I Sb))) :
    M.truth (Fm.eval M ρ φ) := by
  have hl := hS.logical
  obtain ⟨ss, hss, h⟩ := Option.bind_eq_some_iff.1 h
  obtain ⟨_, hf⟩ := hf
  obtain ⟨hgr, hcl⟩ := hf ss hss
  dsimp only at h
  split at h
  swap
  · cases h
  rename_i rs p hrs hp
  cases h
  obtain ⟨res, hres, hrs⟩ := Option.bind_eq_some_iff.1 hrs
  obtain ⟨hnone, rfl⟩ := mapO_id hrs
  rw [truth_mkForall]
  have hnd : ((K.spVars I ss ++ [K.spX I Sb]).map Var.id).Nodup := by
    rw [List.map_append, List.nodup_append]
    refine ⟨sortsToVariables_nodup _ _, by simp, ?_⟩
    intro a ha b hb
    rw [Pbl.spVars, sortsToVariables_ids] at ha
    simp only [List.mem_map, List.mem_range, List.map_cons, List.map_nil, List.mem_singleton, Pbl.spX] at ha hb
    obtain ⟨_, _, rfl⟩ := ha
    omega
  refine quantVal_all_of M _ _ ρ hnd (fun τ _ hdom => ?_)
  rw [Fm.eval, evals, evals, evals, hl.imp]
  intro ht
  have hsub := AncSpec.cells_sub (hS.graph.spec hS.good)
  have hargs : ∀ t : Fm F, t ∈ (K.spVars I ss).map Fm.var → ∃ v ∈ K.spVars I ss, t = .var v := by
    intro t h
    obtain ⟨v, hv, rfl⟩ := List.mem_map.1 h
    exact ⟨v, hv, rfl⟩
  have hvars : ∀ v ∈ (Fm.app f ((K.spVars I ss).map .var)).vars, v ∈ K.spVars I ss := by
    intro v hv
    rw [Fm.vars, varss_eq] at hv
    obtain ⟨t, ht, hv⟩ := List.mem_flatMap.1 hv
    obtain ⟨w, hw, rfl⟩ := hargs t ht
    simp only [Fm.vars, List.mem_singleton] at hv
    subst hv; exact hw
  have hroots : ∀ t bv, (t, bv) ∈ [((Fm.app f ((K.spVars I ss).map Fm.var) : Fm F), ([] : List Var))] →
      NoQuant t ∧ VarsIn (fun i => i ∈ (K.spVars I ss ++ [K.spX I Sb]).map Var.id) bv t ∧ (bv.map Var.id).Nodup := by
    intro t bv h
    simp only [List.mem_singleton, Prod.mk.injEq] at h
    obtain ⟨rfl, rfl⟩ := h
    refine ⟨.app (fun t h => by obtain ⟨v, _, rfl⟩ := hargs t h; exact .var v), fun v hv => .inr ?_, by simp⟩
    exact List.mem_map_of_mem (List.mem_append_left _ (hvars v hv))
  obtain ⟨g, args, κ, ho, hg, hv⟩ := H ss p τ hss hp hdom ht
  have hxo : (fun i => i ∈ (K.spVars I ss ++ [K.spX I Sb]).map Var.id) (K.spX I Sb).id :=
    List.mem_map_of_mem (List.mem_append_right _ (List.mem_singleton_self _))
  obtain ⟨ws, χ, h1, h2⟩ := search_var (C := K.search Sb keepGuard) (cells := K.cells) (part := part) hl.sem hS.prot hsh
    hde (hS.own.timed M _ hpr hS.trans)
    (hS.own.graphOK hS.visible hS.inputs hS.prot.cells K.G (hS.graph.spec hS.good) M _ hpr) hsub hroots hcl
    hxo hres hnone (List.mem_singleton_self _) (ρ := τ) (fun _ _ => rfl) (fun _ h => nomatch h) ho hg hv
  exact (C31_search_partial (C := K.search Sb keepGuard) (cells := K.cells) hl.sem hS.prot hsh hsub hroots hcl
    (fun v hv => by simp only [Fm.vars, List.mem_singleton] at hv; subst hv; exact hxo) hS.dom hres _).2 ⟨ws, χ, h1, h2⟩

/-- **C46: the axiom of a macro or quantifier symbol is true.** What occurs in it is found by the search. `_partial`:
for symbols with `SpecialOK`; see `C46_message_argument_counterexample`, `C46_capture_counterexample` and
`C46_exec_counterexample` for what is left out. -/
theorem C46_special_partial (hS : Setting K M) (W : World K M S ta Sb.A.sort gr)
    (hO : SubOK K M S ta vp follow part Sb fl) {keepGuard : Bool} {f : F} (hta : ta f)
    (hf : SpecialOK K I gr Sb fl keepGuard f) {φ : Fm F} (h : K.specialAx I Sb fl keepGuard f = some φ) (ρ : Valn D) :
    M.truth (Fm.eval M ρ φ) := by
  refine special_true hS hO.proper hO.shrinks hO.descends hf h ρ fun ss p τ hss hp hdom ht => ?_
  obtain ⟨hne, hf⟩ := hf
  obtain ⟨hgr, _⟩ := hf ss hss
  have hx : M.dom Sb.A.sort (Fm.eval M τ (.var (K.spX I Sb))) := hdom (K.spX I Sb) (by simp)
  have hc := (hO.reads.truth hx hp).1 ht
  have hargs : ∀ t : Fm F, t ∈ (K.spVars I ss).map Fm.var → ∃ v ∈ K.spVars I ss, t = .var v := by
    intro t h
    obtain ⟨v, hv, rfl⟩ := List.mem_map.1 h
    exact ⟨v, hv, rfl⟩
  have hvars : ∀ v ∈ (Fm.app f ((K.spVars I ss).map .var)).vars, v ∈ K.spVars I ss := by
    intro v hv
    rw [Fm.vars, varss_eq] at hv
    obtain ⟨t, ht, hv⟩ := List.mem_flatMap.1 hv
    obtain ⟨w, hw, rfl⟩ := hargs t ht
    simp only [Fm.vars, List.mem_singleton] at hv
    subst hv; exact hw
  have hov : Over S (.app f ((K.spVars I ss).map .var)) := .app (W.ta_S _ hta) (fun t h => by
    obtain ⟨v, _, rfl⟩ := hargs t h; exact .var v)
  obtain ⟨k, hw⟩ := hc.within
  have novar : ∀ v ∈ (Fm.app f ((K.spVars I ss).map .var)).vars, ∀ j,
      ¬ Within K.E.L K.steps M vp follow (Fm.eval M τ (.var (K.spX I Sb))) j (τ v.id) := by
    intro v hv j hw
    have hv := hvars v hv
    refine W.none_in hO.vp_ta (hgr v.sort ?_) (hdom v (List.mem_append_left _ hv)) hx hw.contains
    have := List.mem_map_of_mem (f := Var.sort) hv
    rwa [Pbl.spVars, sortsToVariables_sorts] at this
  rcases hO.flags with rfl | ⟨htq, hfo⟩
  · rcases W.occurrence hS.prot hO.proper hO.vp_ta hO.parts hO.qargs
        (R := Inside K.E.L K.steps M part (fun _ => True)) (fun t a τ h => .inl (.inl (.part h)))
        (fun f args τ y _ h => h.inside.1) hx k _ hw _ τ hov rfl with ⟨g, args, κ, h1, h2, h3⟩ | ⟨v, hv, j, _, hw⟩
    · refine ⟨g, args, κ, .inl ⟨rfl, (occurs_notExec hS hO.proper ?_ h1).2⟩, h2, h3⟩
      intro g hg
      cases hg with
      | here => exact hne
      | arg ha hg =>
        obtain ⟨v, _, rfl⟩ := hargs _ ha
        cases hg
    · exact absurd hw (novar v hv j)
  · rcases W.occurrence hS.prot hO.proper hO.vp_ta hO.parts hO.qargs
        (R := Plain K.E.L M part) (fun t a τ h => .part h)
        (fun f args τ y hf h => h.inside.2 (hfo f hf)) hx k _ hw _ τ hov rfl with ⟨g, args, κ, h1, h2, h3⟩ | ⟨v, hv, j, _, hw⟩
    · exact ⟨g, args, κ, .inr ⟨htq, h1⟩, h2, h3⟩
    · exact absurd hw (novar v hv j)

/-! ### Nonces -/

omit [DecidableEq F] in
/-- A name occurs in a name only if they are the same. -/
theorem name_in_name (W : World K M S ta .name gr) (hvp : ∀ f l a, vp f l a → ta f)
    (hnames : ∀ g, K.E.L.out g = some .name → ¬ ta g) {n n' : D} (hn' : M.dom .name n')
    (h : Contains K.E.L K.steps M vp follow n n') : n = n' := by
  obtain ⟨g, l, h1, h2, h3⟩ := W.built _ hn'
  cases h with
  | here => rfl
  | part hv _ =>
    obtain ⟨rfl, _⟩ := W.free _ _ _ _ h1 (W.ta_S _ (hvp _ _ _ hv)) h3.symm
    exact absurd (hvp _ _ _ hv) (hnames _ h2)
  | opened _ ho _ =>
    have := W.opens _ ho.kind.1 ho.kind.2
    obtain ⟨rfl, _⟩ := W.free _ _ _ _ h1 (W.ta_S _ this) h3.symm
    exact absurd this (hnames _ h2)

omit [DecidableEq F] in
theorem Every.is_ta {ta : F → Prop} (f : F) (l : List D) (a : D) (h : Every ta f l a) : ta f := h.1

omit [DecidableEq F] in
theorem Every.parts (ta : F → Prop) : Parts M S (Every ta) ArgOf := by
  rintro f args τ a _ ⟨_, h⟩
  obtain ⟨b, hb, rfl⟩ := List.mem_map.1 h
  exact .inl ⟨b, .mk hb, rfl⟩

omit [DecidableEq F] in
/-- The predicate of nonces, and that of the messages signed, is as assumed when it is read as occurrence. -/
theorem SubOK.default {ta : F → Prop} {s : Srt} {sound : Bool} {sym : Option Srt → Option F}
    (hR : Reads K M (Every ta) (fun _ => True) ⟨Aux.default s, sound, sym⟩) :
    SubOK K M S ta (Every ta) (fun _ => True) ArgOf ⟨Aux.default s, sound, sym⟩ .all where
  reads := hR
  vp_ta := Every.is_ta
  parts := Every.parts ta
  qargs := fun _ _ _ _ _ _ _ h => .mk h
  proper := ArgOf.proper
  shrinks := default_shrinks s
  descends := ArgOf.down
  flags := .inl rfl

omit [DecidableEq F] in
/-- **C46: names.** A name is a subterm of a name only if they are the same; names with the same value are the same;
what has the value of a name contains it. -/
theorem C46_names (hl : Logical K.E M) {sym : Option Srt → Option F} (W : World K M S ta .name gr)
    (hR : Reads K M (Every ta) (fun _ => True) (nonceSub sym)) (hN : NamesOK K M ta) (ρ : Valn D) (φ : Fm F) :
    (K.nameAx (nonceSub sym) = some φ → M.truth (Fm.eval M ρ φ)) ∧ (K.evalAx = some φ → M.truth (Fm.eval M ρ φ)) ∧
    (K.groundAx (nonceSub sym) = some φ → M.truth (Fm.eval M ρ φ)) := by
  have hcs : ∀ v, K.E.L.sortOf (.app K.cast [.var v]) = some .message := fun v => sortOf_app hN.cast.2.2 _
  refine ⟨fun h => ?_, fun h => ?_, fun h => ?_⟩
  · obtain ⟨p, hp, rfl⟩ := Option.map_eq_some_iff.1 h
    rw [truth_mkForall]
    refine quantVal_all_of M _ _ ρ (by simp) (fun τ _ hdom => ?_)
    have h0 : M.dom .name (τ 0) := hdom ⟨0, .name⟩ (by simp)
    have h1 : M.dom .name (τ 1) := hdom ⟨1, .name⟩ (by simp)
    simp only [Fm.eval, evals, Lang.meq]
    rw [hl.imp, hl.sem.eq, hR.truth (x := .var ⟨0, .name⟩) h0 hp]
    exact name_in_name W Every.is_ta hN.names h1
  · simp only [Pbl.evalAx] at h
    split at h
    swap
    · cases h
    rename_i a b ha hb
    cases h
    rw [truth_mkForall]
    refine quantVal_all_of M _ _ ρ (by simp) (fun τ _ hdom => ?_)
    have h0 : M.dom .name (τ 0) := hdom ⟨0, .name⟩ (by simp)
    have h1 : M.dom .name (τ 1) := hdom ⟨1, .name⟩ (by simp)
    simp only [Fm.eval, evals, Lang.meq]
    rw [hl.imp, hl.sem.eq, hl.sem.eq, eval_val M (hcs _) ha, eval_val M (hcs _) hb]
    simp only [Fm.eval, evals]
    intro he
    have hc := hN.fresh _ _ h0 (hN.typed _ h1) he
    have hS := W.ta_S _ hN.cast.1
    generalize hd : M.fn K.cast [τ 1] = d at hc
    cases hc with
    | here =>
      obtain ⟨g, l, h1, h2, h3⟩ := W.built _ h0
      obtain ⟨rfl, _⟩ := W.free _ _ _ _ hS h1 (hd.trans h3)
      exact absurd hN.cast.1 (hN.names _ h2)
    | part hv hc =>
      obtain ⟨rfl, rfl⟩ := W.free _ _ _ _ hS (W.ta_S _ hv.1) hd
      have := hv.2
      simp only [List.mem_singleton] at this
      subst this
      exact name_in_name W Every.is_ta hN.names h1 hc
    | opened _ ho _ =>
      obtain ⟨rfl, rfl⟩ := W.free _ _ _ _ hS (W.ta_S _ (W.opens _ ho.kind.1 ho.kind.2)) hd
      exact absurd hN.cast.2.1 ho.kind.1
  · simp only [Pbl.groundAx] at h
    split at h
    swap
    · cases h
    rename_i a b p ha hb hp
    cases h
    rw [truth_mkForall]
    refine quantVal_all_of M _ _ ρ (by simp) (fun τ _ hdom => ?_)
    have h0 : M.dom .name (τ 0) := hdom ⟨0, .name⟩ (by simp)
    have h1 : M.dom .message (τ 1) := hdom ⟨1, .message⟩ (by simp)
    simp only [Fm.eval, evals, Lang.meq]
    rw [hl.imp, hl.sem.eq, hR.truth (x := .var ⟨0, .name⟩) h0 hp, eval_val M (hcs _) ha, eval_val M (sortOf_var _ _) hb]
    exact hN.fresh _ _ h0 h1

/-- **C46: the axioms about nonces are true**, all of them, when the subterm predicates are read as the occurrence of
names in values and a message that evaluates as a name contains it. `_partial`: except those of the macros and
quantifier symbols that are not as `SpecialOK` says; the protocol is as in `Setting`. -/
theorem C46_nonce_partial (hS : Setting K M) {sym : Option Srt → Option F} (W : World K M S ta .name gr)
    (hR : Reads K M (Every ta) (fun _ => True) (nonceSub sym)) (hN : NamesOK K M ta)
    (hI : InfoOK K I ta gr .name (Every (D := D) ta) [])
    {vampire : Bool} {axs : List (Fm F)} {g : Fm F} (h : K.nonce I vampire sym = some (axs, g)) (ρ : Valn D) :
    (∀ φ ∈ axs, M.truth (Fm.eval M ρ φ) ∨ ∃ f ∈ K.E.functions, I.dflt f = false ∧
      ¬ SpecialOK K I gr (nonceSub sym) .all true f ∧ K.specialAx I (nonceSub sym) .all true f = some φ) ∧
    M.truth (Fm.eval M ρ g) := by
  have hl := hS.logical
  unfold Pbl.nonce at h
  dsimp only at h
  split at h
  swap
  · cases h
  rename_i a b c d g' ha hb hc hd hg
  cases h
  refine ⟨fun φ hφ => ?_, (C46_names hl W hR hN ρ _).2.2 hg⟩
  rcases List.mem_append.1 hφ with hφ | hφ
  · rcases List.mem_append.1 hφ with hφ | hφ
    · cases vampire with
      | true => simp only [if_true, Option.some.injEq] at ha; subst ha; cases hφ
      | false =>
        simp only [Bool.false_eq_true, if_false] at ha
        split at ha
        swap
        · cases ha
        rename_i a' b' ha' hb'
        cases ha
        rcases List.mem_append.1 hφ with hφ | hφ
        · exact .inl (C46_function (Sb := nonceSub sym) hl W hR Every.is_ta hI ha' ρ φ hφ)
        · obtain ⟨s, hs, h⟩ := mapO_mem hb' φ hφ
          simp only [Pbl.nonceSorts, List.mem_filter, Bool.not_eq_true', Bool.or_eq_false_iff, decide_eq_false_iff_not] at hs
          exact .inl (C46_not_of_sort (Sb := nonceSub sym) hl W hR Every.is_ta (hI.sorts s hs.1 hs.2.2 hs.2.1) h ρ)
    · obtain ⟨f, hf, h⟩ := mapO_mem hb φ hφ
      simp only [List.mem_filter, Bool.and_eq_true, Bool.or_eq_true, Bool.not_eq_true', List.contains_nil,
        Bool.false_eq_true, or_false] at hf
      by_cases hsp : SpecialOK K I gr (nonceSub sym) .all true f
      · exact .inl (C46_special_partial hS W (SubOK.default hR) (hI.ta f hf.2.1) hsp h ρ)
      · exact .inr ⟨f, hf.1, hf.2.2, hsp, h⟩
  · simp only [List.mem_cons, List.not_mem_nil, or_false] at hφ
    rcases hφ with rfl | rfl
    · exact .inl ((C46_names hl W hR hN ρ _).1 hc)
    · exact .inl ((C46_names hl W hR hN ρ _).2.1 hd)

/-! ### The predicates of the schemes -/

/-- **C63: the definition of a subterm predicate is true** when it is read as occurrence. `_partial`: as for
`C46_nonce_partial`; moreover the unfolding axioms of the ignored functions are left out: see
`C63_ignored_counterexample`. -/
theorem C63_define_partial (hS : Setting K M) (W : World K M S ta Sb.A.sort gr)
    (hO : SubOK K M S ta vp follow part Sb fl) (hI : InfoOK K I ta gr Sb.A.sort vp ignored) {keepGuard : Bool}
    {vampire : Bool} {axs : List (Fm F)} (h : K.defineSub I vampire Sb fl ignored keepGuard = some axs) (φ : Fm F)
    (hφ : φ ∈ axs) : (∀ ρ, M.truth (Fm.eval M ρ φ)) ∨ ∃ f ∈ K.E.functions,
      (if I.dflt f then f ∈ ignored else ¬ SpecialOK K I gr Sb fl keepGuard f) ∧ K.specialAx I Sb fl keepGuard f = some φ := by
  have hl := hS.logical
  unfold Pbl.defineSub at h
  split at h
  swap
  · cases h
  rename_i a b ha hb
  cases h
  rcases List.mem_append.1 hφ with hφ | hφ
  · cases vampire with
    | true => simp only [if_true, Option.some.injEq] at ha; subst ha; cases hφ
    | false =>
      simp only [Bool.false_eq_true, if_false] at ha
      split at ha
      swap
      · cases ha
      rename_i a' b' ha' hb'
      cases ha
      rcases List.mem_append.1 hφ with hφ | hφ
      · exact .inl fun ρ => C46_function hl W hO.reads hO.vp_ta hI ha' ρ φ hφ
      · obtain ⟨s, hs, h⟩ := mapO_mem hb' φ hφ
        simp only [List.mem_filter, Bool.and_eq_true, decide_eq_true_eq, Bool.not_eq_true'] at hs
        exact .inl fun ρ => C46_not_of_sort hl W hO.reads hO.vp_ta (hI.sorts s hs.1 hs.2.1.2 (by simpa using hs.2.1.1)) h ρ
  · obtain ⟨f, hf, h⟩ := mapO_mem hb φ hφ
    simp only [List.mem_filter, Bool.and_eq_true, Bool.or_eq_true, Bool.not_eq_true', List.contains_eq_mem,
      decide_eq_true_eq] at hf
    cases hd : I.dflt f with
    | true => exact .inr ⟨f, hf.1, by simpa [hd] using hf.2.2, h⟩
    | false =>
      by_cases hsp : SpecialOK K I gr Sb fl keepGuard f
      · exact .inl fun ρ => C46_special_partial hS W hO (hI.ta f hf.2.1) hsp h ρ
      · exact .inr ⟨f, hf.1, by simpa [hd] using hsp, h⟩

/-- SPECIFICATION. Where a key occurs in a value, otherwise than as the key of `mac` or `verify` (`KeyPart`, for
values). -/
def KeyParts (M : Str F D) (mac verify cast : F) (ta : F → Prop) (f : F) (l : List D) (a : D) : Prop :=
  ta f ∧ ((f ≠ mac ∧ f ≠ verify ∧ a ∈ l) ∨
    (f = mac ∧ (a ∈ l.take 1 ∨ l[1]? = some a ∧ ∀ as, a ≠ M.fn cast as)) ∨
    (f = verify ∧ (a ∈ l.take 2 ∨ l[2]? = some a ∧ ∀ as, a ≠ M.fn cast as)))

/-- SPECIFICATION. Where messages are authenticated in a value (`MainPart`, for values): the `mac` being verified
does not count, its arguments do. -/
def MainParts (M : Str F D) (mac verify : F) (ta : F → Prop) (f : F) (l : List D) (a : D) : Prop :=
  ta f ∧ ((f ≠ verify ∧ a ∈ l) ∨ (f = verify ∧ ∃ s m k, l = [s, m, k] ∧
    (a = m ∨ a = k ∨ (a = s ∧ ∀ as, s ≠ M.fn mac as) ∨ ∃ as, s = M.fn mac as ∧ a ∈ as)))

/-- SPECIFICATION. Where a key occurs in a value, otherwise than to sign or in a public key (`SignPart`, for
values). -/
def SignParts (M : Str F D) (sign pk cast : F) (ta : F → Prop) (f : F) (l : List D) (a : D) : Prop :=
  ta f ∧ ((f ≠ sign ∧ f ≠ pk ∧ a ∈ l) ∨
    (f = sign ∧ (a ∈ l.take 1 ∨ l[1]? = some a ∧ ∀ as, a ≠ M.fn cast as)) ∨
    (f = pk ∧ l[0]? = some a ∧ ∀ as, a ≠ M.fn cast as))

omit [DecidableEq F] in
theorem take_eval {τ : Valn D} {args : List (Fm F)} {n : Nat} {a : D} (h : a ∈ (args.map (Fm.eval M τ)).take n) :
    ∃ b ∈ args.take n, Fm.eval M τ b = a := by
  rw [← List.map_take] at h
  exact List.mem_map.1 h

omit [DecidableEq F] in
/-- The key argument: either a term that is not the cast of a name, or a variable. -/
theorem key_eval {cast f : F} {τ : Valn D} {args : List (Fm F)} {n : Nat} {a : D} (ho : Over S (.app f args))
    (h : (args.map (Fm.eval M τ))[n]? = some a) (ha : ∀ as, a ≠ M.fn cast as) :
    (∃ g as, args[n]? = some (.app g as) ∧ g ≠ cast ∧ Fm.app g as ∈ args ∧ Fm.eval M τ (.app g as) = a) ∨
      ∃ v ∈ (Fm.app f args).vars, τ v.id = a := by
  rw [List.getElem?_map] at h
  obtain ⟨t, ht, rfl⟩ := Option.map_eq_some_iff.1 h
  have hm := List.mem_of_getElem? ht
  have hot : Over S t := by cases ho with | app _ h => exact h t hm
  cases hot with
  | var v => exact .inr ⟨v, vars_arg hm (by simp [Fm.vars]), rfl⟩
  | @app g as _ _ =>
    refine .inl ⟨g, as, ht, ?_, hm, rfl⟩
    rintro rfl
    exact ha _ (by rw [Fm.eval])

omit [DecidableEq F] in
theorem KeyParts.parts (mac verify cast : F) (ta : F → Prop) :
    Parts M S (KeyParts M mac verify cast ta) (KeyPart mac verify cast) := by
  rintro f args τ a ho ⟨_, h⟩
  rcases h with ⟨h1, h2, h⟩ | ⟨rfl, h | ⟨h, ha⟩⟩ | ⟨rfl, h | ⟨h, ha⟩⟩
  · obtain ⟨b, hb, rfl⟩ := List.mem_map.1 h
    exact .inl ⟨b, .other h1 h2 hb, rfl⟩
  · obtain ⟨b, hb, rfl⟩ := take_eval h
    exact .inl ⟨b, .macMsg hb, rfl⟩
  · rcases key_eval ho h ha with ⟨g, as, h1, h2, h3, h4⟩ | ⟨v, hv, h⟩
    · exact .inl ⟨_, .macKey h1 h2 h3, h4⟩
    · exact .inr ⟨v, hv, .inl h⟩
  · obtain ⟨b, hb, rfl⟩ := take_eval h
    exact .inl ⟨b, .verMsg hb, rfl⟩
  · rcases key_eval ho h ha with ⟨g, as, h1, h2, h3, h4⟩ | ⟨v, hv, h⟩
    · exact .inl ⟨_, .verKey h1 h2 h3, h4⟩
    · exact .inr ⟨v, hv, .inl h⟩

omit [DecidableEq F] in
theorem SignParts.parts (sign pk cast : F) (ta : F → Prop) :
    Parts M S (SignParts M sign pk cast ta) (SignPart sign pk cast) := by
  rintro f args τ a ho ⟨_, h⟩
  rcases h with ⟨h1, h2, h⟩ | ⟨rfl, h | ⟨h, ha⟩⟩ | ⟨rfl, h, ha⟩
  · obtain ⟨b, hb, rfl⟩ := List.mem_map.1 h
    exact .inl ⟨b, .other h1 h2 hb, rfl⟩
  · obtain ⟨b, hb, rfl⟩ := take_eval h
    exact .inl ⟨b, .signMsg hb, rfl⟩
  · rcases key_eval ho h ha with ⟨g, as, h1, h2, h3, h4⟩ | ⟨v, hv, h⟩
    · exact .inl ⟨_, .signKey h1 h2 h3, h4⟩
    · exact .inr ⟨v, hv, .inl h⟩
  · rcases key_eval ho h ha with ⟨g, as, h1, h2, h3, h4⟩ | ⟨v, hv, h⟩
    · exact .inl ⟨_, .pkKey h1 h2 h3, h4⟩
    · exact .inr ⟨v, hv, .inl h⟩

omit [DecidableEq F] in
theorem SignPart.proper (sign pk cast : F) : Proper (SignPart sign pk cast) := by
  intro t a h
  cases h with
  | other _ _ h => exact .single (.mk h)
  | signMsg h => exact .single (.mk (List.mem_of_mem_take h))
  | signKey _ _ h => exact .single (.mk h)
  | pkKey _ _ h => exact .single (.mk h)

omit [DecidableEq F] in
theorem MainParts.parts {srt : Srt} (W : World K M S ta srt gr) {mac verify : F} (hmv : mac ≠ verify) (hmac : ta mac) :
    Parts M S (MainParts M mac verify ta) (MainPart mac verify) := by
  rintro f args τ a ho ⟨_, h⟩
  rcases h with ⟨h1, h⟩ | ⟨rfl, s, m, k, e, h⟩
  · obtain ⟨b, hb, rfl⟩ := List.mem_map.1 h
    exact .inl ⟨b, .other h1 hb, rfl⟩
  · obtain ⟨s', args₁, rfl, rfl, e₁⟩ := List.map_eq_cons_iff.1 e
    obtain ⟨m', args₂, rfl, rfl, e₂⟩ := List.map_eq_cons_iff.1 e₁
    obtain ⟨k', rfl, rfl⟩ := List.map_eq_singleton_iff.1 e₂
    have hs : Over S s' := by cases ho with | app _ h => exact h s' (by simp)
    have hsm : ∀ v ∈ s'.vars, v ∈ (Fm.app f [s', m', k']).vars := fun v hv => vars_arg (by simp) hv
    rcases h with rfl | rfl | ⟨rfl, ha⟩ | ⟨as, e, ha⟩
    · exact .inl ⟨_, .message, rfl⟩
    · exact .inl ⟨_, .key, rfl⟩
    · cases hs with
      | var v => exact .inr ⟨v, hsm v (by simp [Fm.vars]), .inl rfl⟩
      | @app g as _ _ =>
        refine .inl ⟨_, .sig ?_, rfl⟩
        rintro rfl
        exact ha _ (by rw [Fm.eval])
    · cases hs with
      | var v => exact .inr ⟨v, hsm v (by simp [Fm.vars]), .inr ⟨mac, as, e, hmac, .inl ⟨hmv, ha⟩⟩⟩
      | @app g as' hg _ =>
        rw [Fm.eval, evals_map] at e
        obtain ⟨rfl, rfl⟩ := W.free _ _ _ _ hg (W.ta_S _ hmac) e
        obtain ⟨b, hb, rfl⟩ := List.mem_map.1 ha
        exact .inl ⟨b, .macArg hb, rfl⟩

/-- SPECIFICATION. The symbols opened by the predicates for keys: quantifier symbols only. -/
def IsTaq (K : Pbl F) (f : F) : Prop := ∃ b fr cs, K.E.L.kind f = .taq b fr cs

/-- The predicate for the keys of a MAC is as assumed when it is read as the occurrence of keys. -/
theorem SubOK.macKey {U : Uf F} (hmv : U.mac ≠ U.verify)
    (hm : K.E.L.kind U.mac = .plain) (hv : K.E.L.kind U.verify = .plain)
    (hR : Reads K M (KeyParts M U.mac U.verify K.cast ta) (IsTaq K) (U.key K)) :
    SubOK K M S ta (KeyParts M U.mac U.verify K.cast ta) (IsTaq K) (KeyPart U.mac U.verify K.cast) (U.key K) .noRecMacro where
  reads := hR
  vp_ta := fun _ _ _ h => h.1
  parts := KeyParts.parts _ _ _ _
  qargs := fun f b fr cs hk args a ha => .other (by rintro rfl; rw [hm] at hk; cases hk) (by rintro rfl; rw [hv] at hk; cases hk) ha
  proper := KeyPart.proper _ _ _
  shrinks := ufKey_shrinks _ _ _
  descends := KeyPart.down _ _ _ hmv
  flags := .inr ⟨rfl, fun _ h => h⟩

/-- The predicate for the messages of a MAC. -/
theorem SubOK.macMain {U : Uf F} (W : World K M S ta .message gr) (hh : U.hmac = false) (hmv : U.mac ≠ U.verify) (hmac : ta U.mac)
    (hv : K.E.L.kind U.verify = .plain)
    (hR : Reads K M (MainParts M U.mac U.verify ta) (fun _ => True) (U.main K)) :
    SubOK K M S ta (MainParts M U.mac U.verify ta) (fun _ => True) (MainPart U.mac U.verify) (U.main K) .all where
  reads := hR
  vp_ta := fun _ _ _ h => h.1
  parts := MainParts.parts W hmv hmac
  qargs := fun f b fr cs hk args a ha => .other (by rintro rfl; rw [hv] at hk; cases hk) ha
  proper := MainPart.proper _ _
  shrinks := ufMain_shrinks _ _ _ _ _
  descends := by
    have := MainPart.down K.E.L K.eqTa U.mac U.verify
    rw [← hh] at this
    exact this
  flags := .inl rfl

/-- The predicate for the keys of a signature. -/
theorem SubOK.signKey {U : Euf F} (hsp : U.sign ≠ U.pk)
    (hm : K.E.L.kind U.sign = .plain) (hv : K.E.L.kind U.pk = .plain)
    (hR : Reads K M (SignParts M U.sign U.pk K.cast ta) (IsTaq K) (U.key K)) :
    SubOK K M S ta (SignParts M U.sign U.pk K.cast ta) (IsTaq K) (SignPart U.sign U.pk K.cast) (U.key K) .noRecMacro where
  reads := hR
  vp_ta := fun _ _ _ h => h.1
  parts := SignParts.parts _ _ _ _
  qargs := fun f b fr cs hk args a ha => .other (by rintro rfl; rw [hm] at hk; cases hk) (by rintro rfl; rw [hv] at hk; cases hk) ha
  proper := SignPart.proper _ _ _
  shrinks := eufKey_shrinks _ _ _
  descends := SignPart.down _ _ _ hsp
  flags := .inr ⟨rfl, fun _ h => h⟩

/-- **C63 for MACs.** The definitions of the two subterm predicates of a MAC are true, except the unfolding axioms for
`mac` and `verify` and for the symbols that are not as `SpecialOK` says. `_partial`: see `C63_define_partial`; without `hmac`. -/
theorem C63_mac_partial (hS : Setting K M) {U : Uf F} (hh : U.hmac = false) (hmv : U.mac ≠ U.verify)
    (hm : K.E.L.kind U.mac = .plain) (hv : K.E.L.kind U.verify = .plain) (hmac : ta U.mac)
    (Wk : World K M S ta .name gr) (Wm : World K M S ta .message gr)
    (hRk : Reads K M (KeyParts M U.mac U.verify K.cast ta) (IsTaq K) (U.key K))
    (hRm : Reads K M (MainParts M U.mac U.verify ta) (fun _ => True) (U.main K))
    (hI : InfoOK K I ta gr .name (Every (D := D) ta) []) (hI' : ∀ s ∈ K.E.sorts, I.taSort s = false → gr s)
    {vampire : Bool} {axs : List (Fm F)} (h : U.defineSubterms K I vampire = some axs) (φ : Fm F) (hφ : φ ∈ axs) :
    (∀ ρ, M.truth (Fm.eval M ρ φ)) ∨ ∃ f ∈ K.E.functions,
      ((if I.dflt f then f ∈ [U.mac, U.verify] else ¬ SpecialOK K I gr (U.key K) .noRecMacro false f) ∧
        K.specialAx I (U.key K) .noRecMacro false f = some φ) ∨
      ((if I.dflt f then f ∈ [U.mac, U.verify] else ¬ SpecialOK K I gr (U.main K) .all true f) ∧
        K.specialAx I (U.main K) .all true f = some φ) := by
  have hIk : InfoOK K I ta gr (U.key K).A.sort (KeyParts M U.mac U.verify K.cast ta) [U.mac, U.verify] :=
    ⟨hI.dflt, hI.ta, hI.sorts, by
      rintro f _ hni l a ⟨_, h⟩
      simp only [List.mem_cons, List.not_mem_nil, or_false, not_or] at hni
      rcases h with ⟨_, _, h⟩ | ⟨e, _⟩ | ⟨e, _⟩
      · exact h
      · exact absurd e hni.1
      · exact absurd e hni.2⟩
  have hIm : InfoOK K I ta gr (U.main K).A.sort (MainParts M U.mac U.verify ta) [U.mac, U.verify] :=
    ⟨hI.dflt, hI.ta, fun s hs ht _ => hI' s hs ht, by
      rintro f _ hni l a ⟨_, h⟩
      simp only [List.mem_cons, List.not_mem_nil, or_false, not_or] at hni
      rcases h with ⟨_, h⟩ | ⟨e, _⟩
      · exact h
      · exact absurd e hni.2⟩
  unfold Uf.defineSubterms Pbl.defineSubterms at h
  split at h
  swap
  · cases h; cases hφ
  split at h
  swap
  · cases h
  rename_i a b ha hb
  cases h
  rcases List.mem_append.1 hφ with hφ | hφ
  · rcases C63_define_partial hS Wk (SubOK.macKey hmv hm hv hRk) hIk ha φ hφ with h | ⟨f, hf, h⟩
    · exact .inl h
    · exact .inr ⟨f, hf, .inl h⟩
  · rcases C63_define_partial hS Wm (SubOK.macMain Wm hh hmv hmac hv hRm) hIm hb φ hφ with h | ⟨f, hf, h⟩
    · exact .inl h
    · exact .inr ⟨f, hf, .inr h⟩

/-- **C63 for signatures.** The definitions of the two subterm predicates of a signature are true, except the unfolding
axioms of the predicate for keys for `sign` and `pk`, and those of the symbols that are not as `SpecialOK` says. `_partial`: see `C63_define_partial`. -/
theorem C63_signature_partial (hS : Setting K M) {U : Euf F} (hsp : U.sign ≠ U.pk)
    (hm : K.E.L.kind U.sign = .plain) (hv : K.E.L.kind U.pk = .plain)
    (Wk : World K M S ta .name gr) (Wm : World K M S ta .message gr)
    (hRk : Reads K M (SignParts M U.sign U.pk K.cast ta) (IsTaq K) (U.key K))
    (hRm : Reads K M (Every ta) (fun _ => True) U.main)
    (hI : InfoOK K I ta gr .name (Every (D := D) ta) []) (hI' : ∀ s ∈ K.E.sorts, I.taSort s = false → gr s)
    {vampire : Bool} {axs : List (Fm F)} (h : U.defineSubterms K I vampire = some axs) (φ : Fm F) (hφ : φ ∈ axs) :
    (∀ ρ, M.truth (Fm.eval M ρ φ)) ∨ ∃ f ∈ K.E.functions,
      ((if I.dflt f then f ∈ [U.sign, U.pk] else ¬ SpecialOK K I gr (U.key K) .noRecMacro false f) ∧
        K.specialAx I (U.key K) .noRecMacro false f = some φ) ∨
      (I.dflt f = false ∧ ¬ SpecialOK K I gr U.main .all true f ∧ K.specialAx I U.main .all true f = some φ) := by
  have hIk : InfoOK K I ta gr (U.key K).A.sort (SignParts M U.sign U.pk K.cast ta) [U.sign, U.pk] :=
    ⟨hI.dflt, hI.ta, hI.sorts, by
      rintro f _ hni l a ⟨_, h⟩
      simp only [List.mem_cons, List.not_mem_nil, or_false, not_or] at hni
      rcases h with ⟨_, _, h⟩ | ⟨e, _⟩ | ⟨e, _⟩
      · exact h
      · exact absurd e hni.1
      · exact absurd e hni.2⟩
  have hIm : InfoOK K I ta gr U.main.A.sort (Every (D := D) ta) [] :=
    ⟨hI.dflt, hI.ta, fun s hs ht _ => hI' s hs ht, fun f _ _ l a h => h.2⟩
  unfold Euf.defineSubterms Pbl.defineSubterms at h
  split at h
  swap
  · cases h; cases hφ
  split at h
  swap
  · cases h
  rename_i a b ha hb
  cases h
  rcases List.mem_append.1 hφ with hφ | hφ
  · rcases C63_define_partial hS Wk (SubOK.signKey hsp hm hv hRk) hIk ha φ hφ with h | ⟨f, hf, h⟩
    · exact .inl h
    · exact .inr ⟨f, hf, .inl h⟩
  · rcases C63_define_partial hS Wm (SubOK.default (ta := ta) hRm) hIm hb φ hφ with h | ⟨f, hf, h1, h⟩
    · exact .inl h
    · cases hd : I.dflt f with
      | true => rw [hd] at h1; simp at h1
      | false => rw [hd] at h1; exact .inr ⟨f, hf, .inr ⟨hd, by simp only [Bool.false_eq_true, if_false] at h1; exact h1, h⟩⟩

end
end Cry
end CV
