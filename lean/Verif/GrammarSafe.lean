import Verif.GrammarTotal
/-
Which texts can make the reader crash: the pairs left by the grammar of Grammar.lean have the shape that their conversion expects,
except in a few places.
-/
set_option linter.unusedSimpArgs false
set_option linter.unusedVariables false
set_option linter.unusedSectionVars false
namespace CV
namespace Txt2
open Prs (Out)

/-- SPECIFICATION. The reader gives `r` on the text, from some number of nested steps on. -/
def Reads (dbg : Bool) (U : Char → Bool) (s : Tx) (r : Out (List Stm)) : Prop := ∃ n, ∀ m, n ≤ m → readFile dbg U m s = some r

theorem Reads.unique {dbg : Bool} {U : Char → Bool} {s : Tx} {r r'} (h : Reads dbg U s r) (h' : Reads dbg U s r') : r = r' := by
  obtain ⟨n, h⟩ := h
  obtain ⟨m, h'⟩ := h'
  have a := h (max n m) (Nat.le_max_left n m)
  rw [h' (max n m) (Nat.le_max_right n m)] at a
  exact (Option.some.inj a).symm

/-- The expression derives the text, leaving these pairs (lookaheads are forgotten, but not that
earlier alternatives fail). -/
inductive Shape (U : Char → Bool) : G → Tx → List Pair → Prop
  | lit (s : Tx) : Shape U (.lit s) s []
  | chr (p : Char → Bool) (c : Char) : p c = true → Shape U (.chr p) [c] []
  | seq {a b : G} {s s' : Tx} {p q : List Pair} : Shape U a s p → Shape U b s' q → Shape U (.seq a b) (s ++ s') (p ++ q)
  | alt1 {a b : G} {s : Tx} {p : List Pair} : Shape U a s p → Shape U (.alt a b) s p
  | alt2 {a b : G} {s t : Tx} {p : List Pair} : No (gram U) a (s ++ t) → Shape U b s p → Shape U (.alt a b) s p
  | star0 {a : G} : Shape U (.star a) [] []
  | star1 {a : G} {s s' : Tx} {p q : List Pair} : Shape U a s p → Shape U (.star a) s' q → Shape U (.star a) (s ++ s') (p ++ q)
  | opt0 {a : G} : Shape U (.opt a) [] []
  | opt1 {a : G} {s : Tx} {p : List Pair} : Shape U a s p → Shape U (.opt a) s p
  | neg {a : G} : Shape U (.neg a) [] []
  | call {r : Rule} {s : Tx} {p : List Pair} : Shape U (gram U r) s p → Shape U (.call r) s [.node r s p]

section
variable {U : Char → Bool}

theorem run_shape : ∀ (n : Nat) {e : G} {t t' : Tx} {p}, run (gram U) n e t = some (some (p, t')) →
    ∃ s, t = s ++ t' ∧ Shape U e s p := by
  intro n
  induction n with
  | zero => intro e t t' p h; simp [run] at h
  | succ n ih =>
    intro e t t' p h
    cases e with
    | lit s =>
      simp only [run] at h
      split at h
      · rename_i hs
        obtain ⟨u, rfl⟩ := List.isPrefixOf_iff_prefix.1 hs
        cases h
        exact ⟨s, by simp, .lit s⟩
      · cases h
    | chr q =>
      cases t with
      | nil => simp [run] at h
      | cons c t =>
        simp only [run] at h
        split at h
        · rename_i hc
          cases h
          exact ⟨[c], rfl, .chr q c hc⟩
        · cases h
    | seq a b =>
      simp only [run] at h
      split at h
      · cases h
      · cases h
      · rename_i q u hq
        split at h
        · cases h
        · cases h
        · rename_i q' u' hq'
          cases h
          obtain ⟨s₁, rfl, h₁⟩ := ih hq
          obtain ⟨s₂, rfl, h₂⟩ := ih hq'
          exact ⟨s₁ ++ s₂, by simp, .seq h₁ h₂⟩
    | alt a b =>
      simp only [run] at h
      split at h
      · cases h
      · rename_i hn
        obtain ⟨s, rfl, h'⟩ := ih h
        exact ⟨s, rfl, .alt2 ⟨n, hn⟩ h'⟩
      · rename_i hq
        cases h
        obtain ⟨s, e, h⟩ := ih hq
        exact ⟨s, e, .alt1 h⟩
    | star a =>
      simp only [run] at h
      split at h
      · cases h
      · cases h; exact ⟨[], rfl, .star0⟩
      · rename_i q u hq
        split at h
        · cases h
        · cases h
        · rename_i q' u' hq'
          cases h
          obtain ⟨s₁, rfl, h₁⟩ := ih hq
          obtain ⟨s₂, rfl, h₂⟩ := ih hq'
          exact ⟨s₁ ++ s₂, by simp, .star1 h₁ h₂⟩
    | opt a =>
      simp only [run] at h
      split at h
      · cases h
      · cases h; exact ⟨[], rfl, .opt0⟩
      · rename_i hq
        cases h
        obtain ⟨s, e, h⟩ := ih hq
        exact ⟨s, e, .opt1 h⟩
    | neg a =>
      simp only [run] at h
      split at h
      · cases h
      · cases h; exact ⟨[], rfl, .neg⟩
      · cases h
    | call r =>
      simp only [run] at h
      split at h
      · cases h
      · cases h
      · rename_i hq
        cases h
        obtain ⟨s, rfl, h⟩ := ih hq
        refine ⟨s, rfl, ?_⟩
        have : (s ++ t').take ((s ++ t').length - t'.length) = s := by simp
        rw [this]
        exact .call h

/-- SPECIFICATION. The property holds of the pair and of all the pairs inside. -/
inductive Every (P : Pair → Prop) : Pair → Prop
  | node (r : Rule) (s : Tx) (ks : List Pair) : P (.node r s ks) → (∀ k ∈ ks, Every P k) → Every P (.node r s ks)

/-- SPECIFICATION. The term written as the argument: what is inside the pairs `term`, `inner_term` and `commun_base` or
`infix_term`. -/
def opened : List Pair → Option Pair
  | .node _ _ (.node _ _ (.node _ _ (k :: _) :: _) :: _) :: _ => some k
  | _ => none

/-- SPECIFICATION. `msg!` or `cond!` with an argument that is read. In a debug build this is an application; in a release build it is not
a `try find` without variables, nor a quantifier if this is not to be an error. -/
structure Arg (dbg st : Bool) (k : Pair) : Prop where
  debug : dbg = true → k.rule = .application
  find : k.rule = .find_such_that → ∀ v l, k.kids = v :: l → v.kids ≠ []
  quant : st = true → k.rule ≠ .quantifier

/-- SPECIFICATION. The pair is none of the ones that crash a release build (`dbg = false`) or a debug build, nor one of those that give
an error (`st = true`). -/
structure Good (dbg st : Bool) (p : Pair) : Prop where
  /-- `msg!` and `cond!` have an argument. -/
  mac : p.rule = .macro_application → ∀ n l, p.kids = n :: l → n.text = c!"msg!" ∨ n.text = c!"cond!" →
    ∃ k, opened l = some k ∧ Arg dbg st k
  /-- A step with options has assignments; without, a release build can still read `[]`. -/
  step : p.rule = .step → ∀ n a c m o, p.kids = [n, a, c, m, o] → o.rule = .options → dbg = false ∧ o.kids = []
  /-- In a debug build, only functions have arguments, and not variables such as `_x`. -/
  app : dbg = true → p.rule = .application → ∀ n a l, p.kids = n :: a :: l → n.rule = .function
  /-- All the operators between the same brackets are the same. -/
  ops : st = true → p.rule = .infix_term → ∀ a ∈ p.kids, ∀ b ∈ p.kids, a.rule = .operation → b.rule = .operation →
    a.kids.map Pair.rule = b.kids.map Pair.rule

/-- The pairs may come from the expression, and all have the property. -/
def Sh (U : Char → Bool) (P : Pair → Prop) (e : G) (p : List Pair) : Prop := ∃ s, (∀ k ∈ p, Every P k) ∧ Shape U e s p

variable {P : Pair → Prop} {dbg st : Bool}

theorem Sh.lit {k : Tx} {p : List Pair} (h : Sh U P (.lit k) p) : p = [] := by
  obtain ⟨s, _, h⟩ := h; cases h; rfl
theorem Sh.chr {k : Char → Bool} {p : List Pair} (h : Sh U P (.chr k) p) : p = [] := by
  obtain ⟨s, _, h⟩ := h; cases h; rfl
theorem Sh.neg {a : G} {p : List Pair} (h : Sh U P (.neg a) p) : p = [] := by
  obtain ⟨s, _, h⟩ := h; cases h; rfl
theorem Sh.seq {a b : G} {p : List Pair} (h : Sh U P (.seq a b) p) : ∃ p₁ p₂, p = p₁ ++ p₂ ∧ Sh U P a p₁ ∧ Sh U P b p₂ := by
  obtain ⟨s, c, h⟩ := h
  cases h with
  | seq h₁ h₂ => exact ⟨_, _, rfl, ⟨_, fun k hk => c k (by simp [hk]), h₁⟩, _, fun k hk => c k (by simp [hk]), h₂⟩
theorem Sh.alt {a b : G} {p : List Pair} (h : Sh U P (.alt a b) p) : Sh U P a p ∨ Sh U P b p := by
  obtain ⟨s, c, h⟩ := h
  cases h with
  | alt1 h => exact .inl ⟨_, c, h⟩
  | alt2 _ h => exact .inr ⟨_, c, h⟩
theorem Sh.opt {a : G} {p : List Pair} (h : Sh U P (.opt a) p) : p = [] ∨ Sh U P a p := by
  obtain ⟨s, c, h⟩ := h
  cases h with
  | opt0 => exact .inl rfl
  | opt1 h => exact .inr ⟨_, c, h⟩
theorem Sh.star {a : G} {p : List Pair} (h : Sh U P (.star a) p) : ∃ L : List (List Pair), p = L.flatten ∧ ∀ x ∈ L, Sh U P a x := by
  obtain ⟨s, c, h⟩ := h
  generalize hg : G.star a = g at h
  induction h with
  | star0 => exact ⟨[], rfl, by simp⟩
  | star1 h₁ h₂ _ ih =>
    cases hg
    obtain ⟨L, hL', hL⟩ := ih (fun k hk => c k (by simp [hk])) rfl
    subst hL'
    refine ⟨_ :: L, rfl, fun x hx => ?_⟩
    rcases List.mem_cons.1 hx with rfl | hx
    · exact ⟨_, fun k hk => c k (by simp [hk]), h₁⟩
    · exact hL x hx
  | _ => cases hg
theorem Sh.call {r : Rule} {p : List Pair} (h : Sh U P (.call r) p) :
    ∃ s ks, p = [.node r s ks] ∧ Sh U P (gram U r) ks ∧ P (.node r s ks) ∧ Shape U (gram U r) s ks := by
  obtain ⟨s, c, h⟩ := h
  cases h with
  | call h =>
    have hc := c _ (List.mem_singleton.2 rfl)
    cases hc with
    | node _ _ _ h₁ h₂ => exact ⟨_, _, rfl, ⟨_, h₂, h⟩, h₁, h⟩

theorem Sh.star_nil {a : G} {p : List Pair} (h : Sh U P (.star a) p) (ha : ∀ {q}, Sh U P a q → q = []) : p = [] := by
  obtain ⟨L, rfl, hL⟩ := h.star
  simp only [List.flatten_eq_nil_iff]
  exact fun x hx => ha (hL x hx)

theorem Sh.comment {o c : Tx} {p : List Pair} (h : Sh U P (comment o c) p) : p = [] := by
  obtain ⟨a, b, rfl, ha, hb⟩ := h.seq
  obtain ⟨b, d, rfl, hb, hd⟩ := hb.seq
  rw [ha.lit, hd.lit, hb.star_nil fun h => ?_]
  · rfl
  · obtain ⟨a, b, rfl, ha, hb⟩ := h.seq
    rw [ha.neg, hb.chr]
    rfl

theorem Sh.skip {p : List Pair} (h : Sh U P skipG p) : p = [] := by
  obtain ⟨a, b, rfl, ha, hb⟩ := h.seq
  rw [ha.star_nil fun h => h.chr, hb.star_nil fun h => ?_]
  · rfl
  · obtain ⟨a, b, rfl, ha, hb⟩ := h.seq
    rw [hb.star_nil fun h => h.chr]
    rcases ha.alt with ha | ha <;> rw [ha.comment] <;> rfl

theorem Sh.then {a b : G} {p : List Pair} (h : Sh U P (a ~~ b) p) : ∃ p₁ p₂, p = p₁ ++ p₂ ∧ Sh U P a p₁ ∧ Sh U P b p₂ := by
  obtain ⟨x, y, rfl, hx, hy⟩ := h.seq
  obtain ⟨y, z, rfl, hy, hz⟩ := hy.seq
  exact ⟨x, z, by rw [hy.skip]; rfl, hx, hz⟩

theorem Sh.lit_then {k : Tx} {b : G} {p : List Pair} (h : Sh U P (.lit k ~~ b) p) : Sh U P b p := by
  obtain ⟨x, y, rfl, hx, hy⟩ := h.then
  rw [hx.lit]
  exact hy

theorem Sh.then_lit {k : Tx} {a : G} {p : List Pair} (h : Sh U P (a ~~ .lit k) p) : Sh U P a p := by
  obtain ⟨x, y, rfl, hx, hy⟩ := h.then
  rw [hy.lit, List.append_nil]
  exact hx

theorem Sh.many {a : G} {p : List Pair} (h : Sh U P (many a) p) : ∃ L : List (List Pair), p = L.flatten ∧ ∀ x ∈ L, Sh U P a x := by
  rcases h.opt with rfl | h
  · exact ⟨[], rfl, by simp⟩
  · obtain ⟨x, y, rfl, hx, hy⟩ := h.seq
    obtain ⟨L, rfl, hL⟩ := hy.star
    refine ⟨x :: L, rfl, fun z hz => ?_⟩
    rcases List.mem_cons.1 hz with rfl | hz
    · exact hx
    · obtain ⟨u, v, rfl, hu, hv⟩ := (hL z hz).seq
      rw [hu.skip]
      exact hv

theorem Sh.many_call {r : Rule} {p : List Pair} (h : Sh U P (Txt2.many (.call r)) p) : ∀ x ∈ p, Sh U P (.call r) [x] := by
  obtain ⟨L, rfl, hL⟩ := h.many
  intro x hx
  obtain ⟨l, hl, hx⟩ := List.mem_flatten.1 hx
  have h := hL l hl
  obtain ⟨s, ks, rfl, _⟩ := h.call
  rw [List.mem_singleton.1 hx]
  exact h

theorem Sh.listOf {o c : Tx} {r : Rule} {p : List Pair} (h : Sh U P (listOf o (.call r) c) p) : ∀ x ∈ p, Sh U P (.call r) [x] := by
  obtain ⟨y, z, rfl, hy, hz⟩ := h.lit_then.then_lit.then
  intro x hx
  rcases List.mem_append.1 hx with hx | hx
  · obtain ⟨L, rfl, hL⟩ := hy.many
    obtain ⟨l, hl, hx⟩ := List.mem_flatten.1 hx
    have h := (hL l hl).then_lit
    obtain ⟨s, ks, rfl, _⟩ := h.call
    rw [List.mem_singleton.1 hx]
    exact h
  · rcases hz.opt with rfl | h
    · cases hx
    · obtain ⟨s, ks, rfl, _⟩ := h.call
      rw [List.mem_singleton.1 hx]
      exact h

theorem Sh.opt_listOf {o c : Tx} {r : Rule} {p : List Pair} (h : Sh U P (.opt (Txt2.listOf o (.call r) c)) p) :
    ∀ x ∈ p, Sh U P (.call r) [x] := by
  rcases h.opt with rfl | h
  · simp
  · exact h.listOf

/-! ### No panic -/

/-- No panic and no endless loop, and no error if `st`. -/
def Np (st : Bool) {α : Type} (o : Out α) : Prop := o ≠ .panic ∧ o ≠ .loop ∧ (st = true → o ≠ .err)

theorem np_ok {α : Type} {a : α} : Np st (.ok a) := ⟨nofun, nofun, nofun⟩
theorem np_err {α : Type} (h : st = false) : Np st (.err : Out α) := ⟨nofun, nofun, fun e => by rw [h] at e; cases e⟩
theorem np_bind {α β : Type} {o : Out α} {f : α → Out β} (h : Np st o) (hf : ∀ a, o = .ok a → Np st (f a)) : Np st (o.bind f) := by
  cases o with
  | ok a => exact hf a rfl
  | err => exact ⟨nofun, nofun, fun e _ => h.2.2 e rfl⟩
  | panic => exact absurd rfl h.1
  | loop => exact absurd rfl h.2.1

theorem np_all {α : Type} {f : Pair → Out α} : ∀ {l : List Pair}, (∀ x ∈ l, Np st (f x)) → Np st (cAll f l)
  | [], _ => np_ok
  | x :: l, h => np_bind (h x List.mem_cons_self) fun _ _ => np_bind (np_all fun y hy => h y (List.mem_cons_of_mem _ hy)) fun _ _ => np_ok

theorem np_chk {α : Type} {p : Pair} {rs : List Rule} {k : Out α} (hr : p.rule ∈ rs) (hk : Np st k) : Np st (chk dbg p rs k) := by
  rw [chk]
  have : rs.contains p.rule = true := by simpa using hr
  simp only [this, Bool.not_true, Bool.and_false]
  exact hk

theorem ident_pair {p : Pair} (h : Sh U (Good dbg st) (.call .ident) [p]) : Np st (cIdent dbg p) := by
  obtain ⟨s, ks, hp, _⟩ := h.call
  cases hp
  exact np_chk (by simp [Pair.rule]) np_ok

theorem name_np {r : Rule} (hr : gram U r = .call .ident) {p : Pair} (h : Sh U (Good dbg st) (.call r) [p]) : Np st (cName dbg r p) := by
  obtain ⟨s, ks, hp, h', _⟩ := h.call
  cases hp
  rw [hr] at h'
  obtain ⟨s', ks', rfl, _⟩ := h'.call
  exact np_chk (by simp [Pair.rule]) (ident_pair h')

theorem var_np {p : Pair} (h : Sh U (Good dbg st) (.call .variable) [p]) : Np st (cVar dbg p) := by
  obtain ⟨s, ks, hp, h, _⟩ := h.call
  cases hp
  exact np_chk (by simp [Pair.rule]) np_ok

theorem bnd_np {p : Pair} (h : Sh U (Good dbg st) (.call .variable_binding) [p]) : Np st (cBnd dbg p) := by
  obtain ⟨s, ks, hp, h', _⟩ := h.call
  cases hp
  obtain ⟨x, y, rfl, hx, hy⟩ := Sh.then h'
  have hy := hy.lit_then
  obtain ⟨_, _, rfl, _⟩ := hx.call
  obtain ⟨_, _, rfl, _⟩ := hy.call
  exact np_chk (by simp [Pair.rule]) (np_bind (var_np hx) fun _ _ => np_bind (name_np rfl hy) fun _ _ => np_ok)

theorem bnds_np {p : Pair} (h : Sh U (Good dbg st) (.call .typed_arguments) [p]) : Np st (cBnds dbg p) := by
  obtain ⟨s, ks, hp, h', _⟩ := h.call
  cases hp
  exact np_chk (by simp [Pair.rule]) (np_all fun x hx => bnd_np (Sh.opt_listOf h' x hx))

theorem one_np {α : Type} {r : Rule} {f : Rule → Option α} {p : Pair} (h : Sh U (Good dbg st) (.call r) [p])
    (hf : ∀ ks, Sh U (Good dbg st) (gram U r) ks → ∃ k, ks = [k] ∧ (f k.rule).isSome) : Np st (cOne dbg r f p) := by
  obtain ⟨s, ks, hp, h', _⟩ := h.call
  cases hp
  obtain ⟨k, rfl, hk⟩ := hf ks h'
  refine np_chk (by simp [Pair.rule]) ?_
  simp only [Pair.kids]
  cases hk' : f k.rule with
  | none => rw [hk'] at hk; cases hk
  | some a => exact np_ok

theorem Sh.one {r : Rule} {p : List Pair} (h : Sh U P (.call r) p) : ∃ k, p = [k] ∧ k.rule = r := by
  obtain ⟨s, ks, rfl, _⟩ := h.call
  exact ⟨_, rfl, rfl⟩

theorem op_np {p : Pair} (h : Sh U (Good dbg st) (.call .operation) [p]) : Np st (cOp dbg p) := by
  refine one_np h fun ks h => ?_
  rcases Sh.alt h with h | h
  · obtain ⟨k, rfl, hk⟩ := h.one; exact ⟨k, rfl, by rw [hk]; rfl⟩
  rcases h.alt with h | h
  · obtain ⟨k, rfl, hk⟩ := h.one; exact ⟨k, rfl, by rw [hk]; rfl⟩
  rcases h.alt with h | h
  · obtain ⟨k, rfl, hk⟩ := h.one; exact ⟨k, rfl, by rw [hk]; rfl⟩
  rcases h.alt with h | h
  · obtain ⟨k, rfl, hk⟩ := h.one; exact ⟨k, rfl, by rw [hk]; rfl⟩
  rcases h.alt with h | h
  · obtain ⟨k, rfl, hk⟩ := h.one; exact ⟨k, rfl, by rw [hk]; rfl⟩
  · obtain ⟨k, rfl, hk⟩ := h.one; exact ⟨k, rfl, by rw [hk]; rfl⟩

theorem quant_np {p : Pair} (h : Sh U (Good dbg st) (.call .quantifier_op) [p]) : Np st (cQuant dbg p) := by
  refine one_np h fun ks h => ?_
  rcases Sh.alt h with h | h
  · obtain ⟨k, rfl, hk⟩ := h.one; exact ⟨k, rfl, by rw [hk]; rfl⟩
  · obtain ⟨k, rfl, hk⟩ := h.one; exact ⟨k, rfl, by rw [hk]; rfl⟩

theorem ordop_np {p : Pair} (h : Sh U (Good dbg st) (.call .ordering_operation) [p]) : Np st (cOrdOp dbg p) := by
  refine one_np h fun ks h => ?_
  rcases Sh.alt h with h | h
  · obtain ⟨k, rfl, hk⟩ := h.one; exact ⟨k, rfl, by rw [hk]; rfl⟩
  rcases h.alt with h | h
  · obtain ⟨k, rfl, hk⟩ := h.one; exact ⟨k, rfl, by rw [hk]; rfl⟩
  · obtain ⟨k, rfl, hk⟩ := h.one; exact ⟨k, rfl, by rw [hk]; rfl⟩

theorem Sh.bracketed {p : List Pair} (h : Sh U P bracketed p) : Sh U P (.call .term) p := h.lit_then.then_lit

/-- The kids of a name with arguments. -/
theorem Sh.inner {p : List Pair} (h : Sh U P innerApp p) : ∀ x ∈ p, Sh U P (.call .term) [x] := by
  rcases h.alt with h | h
  · exact h.listOf
  · exact h.listOf

theorem terms_np : ∀ {l : List Pair}, (∀ x ∈ l, Np st (cTerm dbg x)) → Np st (cTerms dbg l)
  | [], _ => by rw [cTerms]; exact np_ok
  | x :: l, h => by
    rw [cTerms]
    exact np_bind (h x List.mem_cons_self) fun _ _ => np_bind (terms_np fun y hy => h y (List.mem_cons_of_mem _ hy)) fun _ _ => np_ok

theorem infixRest_np {o : Op} : ∀ {L : List (List Pair)}, (∀ l ∈ L, ∃ a b, l = [a, b] ∧ Np st (cOp dbg a) ∧ Np st (cTerm dbg b) ∧
    (st = true → ∀ o', cOp dbg a = .ok o' → o' = o)) → Np st (cInfixRest dbg o L.flatten)
  | [], _ => by rw [List.flatten_nil, cInfixRest]; exact np_ok
  | l :: L, h => by
    obtain ⟨a, b, rfl, ha, hb, hab⟩ := h l List.mem_cons_self
    rw [List.flatten_cons, List.cons_append, List.cons_append, List.nil_append, cInfixRest]
    refine np_bind ha fun o' ho' => ?_
    split
    · exact np_bind hb fun _ _ => np_bind (infixRest_np fun l hl => h l (List.mem_cons_of_mem _ hl)) fun _ _ => np_ok
    · rename_i hne
      cases st with
      | false => exact np_err rfl
      | true => exact absurd (hab rfl o' ho').symm hne

theorem kid_lt {r : Rule} {s : Tx} {ks : List Pair} {k : Pair} (h : k ∈ ks) : sizeOf k < sizeOf (Pair.node r s ks) := by
  have := List.sizeOf_lt_of_mem h
  simp only [Pair.node.sizeOf_spec]
  omega

/-- In a release build any name will do as long as there is something inside. -/
theorem appl_rel {n a : Pair} {l : List Pair} (hn : n.kids ≠ []) (h : ∀ x ∈ a :: l, Np st (cTerm false x)) :
    Np st (cAppl false (n :: a :: l)) := by
  obtain ⟨r, s, ks⟩ := n
  have hn : ∃ x, cName false .function (.node r s ks) = .ok x := by
    cases ks with
    | nil => exact absurd rfl hn
    | cons k ks => exact ⟨_, rfl⟩
  obtain ⟨x, hx⟩ := hn
  rw [cAppl, hx]
  have := terms_np h
  cases hc : cTerms false (a :: l) with
  | panic => exact absurd hc this.1
  | loop => exact absurd hc this.2.1
  | err => exact np_err (by cases st with | false => rfl | true => exact absurd hc (this.2.2 rfl))
  | ok l => exact np_ok

theorem appl_np {s : Tx} {ks : List Pair} (h : Sh U (Good dbg st) (gram U .application) ks) (hg : Good dbg st (.node .application s ks))
    (ih : ∀ x ∈ ks, Sh U (Good dbg st) (.call .term) [x] → Np st (cTerm dbg x)) : Np st (cAppl dbg ks) := by
  obtain ⟨x, y, rfl, hx, hy⟩ := Sh.then h
  have hy' : ∀ z ∈ y, Sh U (Good dbg st) (.call .term) [z] := by
    rcases hy.opt with rfl | hy
    · simp
    · exact hy.inner
  have hyt : ∀ z ∈ y, Np st (cTerm dbg z) := fun z hz => ih z (by simp [hz]) (hy' z hz)
  have hx' : ∃ n, x = [n] ∧ (Sh U (Good dbg st) (.call .function) [n] ∨ n.rule = .variable ∧ n.kids ≠ []) := by
    rcases hx.alt with hx | hx
    · obtain ⟨n, rfl, _⟩ := hx.one
      exact ⟨n, rfl, .inl hx⟩
    · obtain ⟨s', ks', rfl, hk, _⟩ := hx.call
      refine ⟨_, rfl, .inr ⟨rfl, ?_⟩⟩
      obtain ⟨u, v, rfl, hu, hv⟩ := Sh.seq hk
      obtain ⟨v, rfl, _⟩ := hv.one
      simp [Pair.kids]
  obtain ⟨n, rfl, hn⟩ := hx'
  cases y with
  | nil => rw [List.append_nil, cAppl]; exact np_ok
  | cons a y =>
    rcases hn with hn | hn
    · rw [List.cons_append, List.nil_append, cAppl]
      have hn := name_np rfl hn
      have := terms_np hyt
      cases hc : cTerms dbg (a :: y) with
      | panic => exact absurd hc this.1
      | loop => exact absurd hc this.2.1
      | err => exact np_bind hn fun _ _ => np_err (by cases st with | false => rfl | true => exact absurd hc (this.2.2 rfl))
      | ok l => exact np_bind hn fun _ _ => np_ok
    · cases dbg with
      | true =>
        have := hg.app rfl rfl n a y rfl
        rw [hn.1] at this
        cases this
      | false => exact appl_rel hn.2 hyt

/-- The argument of `msg!` or `cond!`, taken for an application. -/
theorem arg_np {k : Pair} {r₄ : Rule} {s₄ : Tx} {ks₄ : List Pair} (hk : k = .node r₄ s₄ ks₄)
    (h : Sh U (Good dbg st) (choice [.call .let_in, .call .if_then_else, .call .find_such_that, .call .quantifier,
      .call .macro_application, .call .application]) [k]) (ha : Arg dbg st k)
    (ih : ∀ x ∈ ks₄, Sh U (Good dbg st) (.call .term) [x] → Np st (cTerm dbg x)) :
    (dbg = true → r₄ = .application) ∧ Np st (cAppl dbg ks₄) := by
  subst hk
  refine ⟨ha.debug, ?_⟩
  have rel : r₄ ≠ .application → dbg = false := by
    intro hne
    cases dbg with
    | false => rfl
    | true => exact absurd (ha.debug rfl) hne
  rcases Sh.alt h with h | h
  · obtain ⟨_, _, e, h, _⟩ := h.call
    cases e
    cases rel nofun
    obtain ⟨a, b, rfl, ha', hb⟩ := (Sh.lit_then h).then
    obtain ⟨c, d, rfl, hc, hd⟩ := hb.lit_then.then
    have hd := hd.lit_then
    obtain ⟨_, _, rfl, ha', _⟩ := ha'.call
    obtain ⟨c, rfl, _⟩ := hc.one
    obtain ⟨d, rfl, _⟩ := hd.one
    obtain ⟨a, b, rfl, ha', hb⟩ := Sh.then ha'
    obtain ⟨a, rfl, _⟩ := ha'.one
    refine appl_rel (a := c) (l := [d]) (by simp [Pair.kids]) fun x hx => ?_
    simp only [List.mem_cons, List.not_mem_nil, or_false] at hx
    rcases hx with rfl | rfl
    · exact ih _ (by simp) hc
    · exact ih _ (by simp) hd
  rcases Sh.alt h with h | h
  · obtain ⟨_, _, e, h, _⟩ := h.call
    cases e
    cases rel nofun
    obtain ⟨a, b, rfl, ha', hb⟩ := (Sh.lit_then h).then
    obtain ⟨c, d, rfl, hc, hd⟩ := hb.then
    have hc := hc.bracketed
    have hd := hd.lit_then.bracketed
    obtain ⟨_, _, rfl, ha', _⟩ := ha'.call
    obtain ⟨c, rfl, _⟩ := hc.one
    obtain ⟨d, rfl, _⟩ := hd.one
    obtain ⟨a, rfl, _⟩ := Sh.one ha'
    refine appl_rel (a := c) (l := [d]) (by simp [Pair.kids]) fun x hx => ?_
    simp only [List.mem_cons, List.not_mem_nil, or_false] at hx
    rcases hx with rfl | rfl
    · exact ih _ (by simp) hc
    · exact ih _ (by simp) hd
  rcases Sh.alt h with h | h
  · obtain ⟨_, _, e, h, _⟩ := h.call
    cases e
    cases rel nofun
    obtain ⟨a, b, rfl, ha', hb⟩ := (Sh.lit_then h).lit_then.then
    obtain ⟨c, d, rfl, hc, hd⟩ := hb.lit_then.lit_then.then
    have hc := hc.bracketed
    obtain ⟨d, e, rfl, hd, he⟩ := hd.lit_then.then
    have hd' := hd.bracketed
    have he := he.lit_then.bracketed
    obtain ⟨a, rfl, _⟩ := ha'.one
    obtain ⟨c, rfl, _⟩ := hc.one
    obtain ⟨d, rfl, _⟩ := hd'.one
    obtain ⟨e, rfl, _⟩ := he.one
    refine appl_rel (a := c) (l := [d, e]) (ha.find rfl _ _ rfl) fun x hx => ?_
    simp only [List.mem_cons, List.not_mem_nil, or_false] at hx
    rcases hx with rfl | rfl | rfl
    · exact ih _ (by simp) hc
    · exact ih _ (by simp) hd'
    · exact ih _ (by simp) he
  rcases Sh.alt h with h | h
  · obtain ⟨_, _, e, h, _⟩ := h.call
    cases e
    cases rel nofun
    have hst : st = false := by
      cases st with
      | false => rfl
      | true => exact absurd rfl (ha.quant rfl)
    subst hst
    obtain ⟨a, b, rfl, ha', hb⟩ := Sh.then h
    obtain ⟨c, d, rfl, hc, hd⟩ := hb.then
    have hd := hd.bracketed
    obtain ⟨_, kq, rfl, ha', _⟩ := ha'.call
    obtain ⟨_, kc, rfl, hc, _⟩ := hc.call
    obtain ⟨d, rfl, _⟩ := hd.one
    have hq : ∃ q, kq = [q] := by
      rcases Sh.alt ha' with ha' | ha'
      · obtain ⟨q, rfl, _⟩ := ha'.one; exact ⟨q, rfl⟩
      · obtain ⟨q, rfl, _⟩ := ha'.one; exact ⟨q, rfl⟩
    obtain ⟨q, rfl⟩ := hq
    refine appl_rel (l := [d]) (by simp [Pair.kids]) fun x hx => ?_
    simp only [List.mem_cons, List.not_mem_nil, or_false] at hx
    rcases hx with rfl | rfl
    · have hkc := Sh.opt_listOf hc
      cases kc with
      | nil => rw [cTerm.eq_def]; exact np_err rfl
      | cons b kc =>
        cases kc with
        | nil =>
          obtain ⟨_, _, e, hb', _⟩ := (hkc b (by simp)).call
          cases e
          obtain ⟨u, v, rfl, hu, hv⟩ := Sh.then hb'
          have hv := hv.lit_then
          obtain ⟨u, rfl, _⟩ := hu.one
          obtain ⟨v, rfl, _⟩ := hv.one
          obtain ⟨ru, su, ku⟩ := u
          rw [cTerm.eq_def]; cases ru <;> exact np_err rfl
        | cons b' kc => obtain ⟨rb, sb, kb⟩ := b; rw [cTerm.eq_def]; exact np_err rfl
    · exact ih _ (by simp) hd
  rcases Sh.alt h with h | h
  · obtain ⟨_, _, e, h, _⟩ := h.call
    cases e
    cases rel nofun
    obtain ⟨a, b, rfl, ha', hb⟩ := Sh.then h
    obtain ⟨_, _, rfl, ha', _⟩ := ha'.call
    obtain ⟨u, v, rfl, hu, hv⟩ := Sh.seq ha'
    obtain ⟨u, rfl, _⟩ := hu.one
    have hb : ∀ z ∈ b, Sh U (Good false st) (.call .term) [z] := by
      rcases hb.opt with rfl | hb
      · simp
      · exact hb.inner
    cases b with
    | nil => rw [List.append_nil, cAppl]; exact np_ok
    | cons x b => exact appl_rel (by simp [Pair.kids]) fun z hz => ih z (List.mem_append_right _ hz) (hb z hz)
  · obtain ⟨_, _, e, h, hg, _⟩ := h.call
    cases e
    exact appl_np h hg ih

theorem macro_np {s : Tx} {ks : List Pair} (h : Sh U (Good dbg st) (gram U .macro_application) ks)
    (hg : Good dbg st (.node .macro_application s ks))
    (ih : ∀ x, sizeOf x < sizeOf (Pair.node .macro_application s ks) → Sh U (Good dbg st) (.call .term) [x] → Np st (cTerm dbg x)) :
    Np st (cMacro dbg ks) := by
  obtain ⟨x, y, rfl, hx, hy⟩ := Sh.then h
  have hy' : ∀ z ∈ y, Sh U (Good dbg st) (.call .term) [z] := by
    rcases hy.opt with rfl | hy
    · simp
    · exact hy.inner
  have hyt : ∀ z ∈ y, Np st (cTerm dbg z) := fun z hz => ih z (kid_lt (by simp [hz])) (hy' z hz)
  obtain ⟨_, hc, hx⟩ := hx
  cases hx with
  | call hx =>
    cases hx with
    | @seq _ _ m _ _ _ ha hb =>
      cases hb
      cases ha with
      | call ha =>
        rw [List.append_nil] at hg ih ⊢
        rw [List.cons_append, List.nil_append, cMacro]
        have : cName dbg .macro_name (.node .macro_name (m ++ c!"!") [.node .ident m ‹_›]) = .ok (String.ofList m) := by
          simp [cName, chk, Pair.rule, Pair.kids, cIdent, Pair.text]
        rw [this]
        simp only [Out.bind]
        by_cases hm : m = c!"msg" ∨ m = c!"cond"
        · obtain ⟨k, hk, hA⟩ := hg.mac rfl _ _ rfl (by rcases hm with rfl | rfl <;> simp [Pair.text])
          cases y with
          | nil => simp [opened] at hk
          | cons p y =>
            have key : ∃ s₁ s₂ r₃ s₃ r₄ s₄ ks₄ ks', p = .node .term s₁ [.node .inner_term s₂ [.node r₃ s₃ (.node r₄ s₄ ks₄ :: ks')]] ∧
                (dbg = true → r₃ = .commun_base ∧ r₄ = .application) ∧ Np st (cAppl dbg ks₄) := by
              obtain ⟨s₁, _, e, h₁, _⟩ := (hy' p (by simp)).call
              cases e
              obtain ⟨s₂, ks₂, rfl, h₂, _⟩ := Sh.call h₁
              rcases Sh.alt h₂ with h₂ | h₂
              · obtain ⟨s₃, ks₃, rfl, h₃, _⟩ := h₂.call
                cases ks₃ with
                | nil => simp [opened] at hk
                | cons k' ks₃ =>
                  have : ks₃ = [] := by
                    rcases Sh.alt h₃ with h | h
                    · obtain ⟨_, e, _⟩ := h.one; cases e; rfl
                    rcases Sh.alt h with h | h
                    · obtain ⟨_, e, _⟩ := h.one; cases e; rfl
                    rcases Sh.alt h with h | h
                    · obtain ⟨_, e, _⟩ := h.one; cases e; rfl
                    rcases Sh.alt h with h | h
                    · obtain ⟨_, e, _⟩ := h.one; cases e; rfl
                    rcases Sh.alt h with h | h
                    · obtain ⟨_, e, _⟩ := h.one; cases e; rfl
                    · obtain ⟨_, e, _⟩ := h.one; cases e; rfl
                  subst this
                  have hk : k' = k := Option.some.inj hk
                  subst hk
                  obtain ⟨r₄, s₄, ks₄⟩ := k'
                  have := arg_np rfl h₃ hA fun x hx hs => ih x (by
                    have l₁ := kid_lt (r := r₄) (s := s₄) hx
                    refine Nat.lt_trans ?_ (kid_lt (List.mem_append_right _ List.mem_cons_self))
                    simp only [Pair.node.sizeOf_spec, List.cons.sizeOf_spec, List.nil.sizeOf_spec] at l₁ ⊢
                    omega) hs
                  exact ⟨s₁, s₂, _, s₃, r₄, s₄, ks₄, [], rfl, fun d => ⟨rfl, this.1 d⟩, this.2⟩
              · obtain ⟨s₃, ks₃, rfl, h₃, _⟩ := h₂.call
                obtain ⟨a, b, rfl, ha, hb⟩ := (Sh.lit_then h₃).then
                obtain ⟨s₄, ks₄, rfl, ha, _⟩ := ha.call
                have hk : Pair.node .term s₄ ks₄ = k := Option.some.inj hk
                subst hk
                cases dbg with
                | true => exact absurd (hA.debug rfl) nofun
                | false =>
                  refine ⟨s₁, s₂, _, s₃, _, s₄, ks₄, b, rfl, nofun, ?_⟩
                  obtain ⟨q, rfl, _⟩ := Sh.one ha
                  rw [cAppl]
                  exact np_ok
            obtain ⟨s₁, s₂, r₃, s₃, r₄, s₄, ks₄, ks', rfl, hd, hnp⟩ := key
            cases dbg with
            | true =>
              obtain ⟨rfl, rfl⟩ := hd rfl
              rcases hm with rfl | rfl
              · exact np_bind hnp fun _ _ => np_ok
              · exact np_bind hnp fun _ _ => np_ok
            | false =>
              rcases hm with rfl | rfl
              · exact np_bind hnp fun _ _ => np_ok
              · exact np_bind hnp fun _ _ => np_ok
        · have hk : mkind (String.ofList m) = .other := by
            rw [mkind, String.toList_ofList, if_neg fun h => hm (.inl h), if_neg fun h => hm (.inr h)]
          rw [hk]
          exact np_bind (terms_np hyt) fun _ _ => np_ok

/-- The operator is told by the rule inside. -/
theorem op_same {a b : Pair} {o o' : Op} (h : a.kids.map Pair.rule = b.kids.map Pair.rule) (ha : cOp dbg a = .ok o)
    (hb : cOp dbg b = .ok o') : o' = o := by
  obtain ⟨ra, sa, ka⟩ := a
  obtain ⟨rb, sb, kb⟩ := b
  simp only [Pair.kids] at h
  rw [cOp, cOne, chk] at ha hb
  split at ha
  · cases ha
  split at hb
  · cases hb
  match ka, kb with
  | [], _ => cases ha
  | _ :: _ :: _, _ => cases ha
  | [_], [] => cases hb
  | [_], _ :: _ :: _ => cases hb
  | [x], [y] =>
    simp only [List.map_cons, List.map_nil, List.cons.injEq, and_true] at h
    simp only [Pair.kids, h] at ha hb
    split at ha
    · split at hb
      · rename_i h1 _ _ h2
        rw [h1] at h2
        cases ha; cases hb; cases h2; rfl
      · cases hb
    · cases ha

theorem term_np : ∀ (n : Nat) {p : Pair}, sizeOf p < n → Sh U (Good dbg st) (.call .term) [p] → Np st (cTerm dbg p) := by
  intro n
  induction n with
  | zero => intro p h; omega
  | succ n ih =>
    intro p hn hp
    obtain ⟨s, ks, e, h, _⟩ := hp.call
    cases e
    obtain ⟨s₁, ks₁, rfl, h₁, _⟩ := Sh.call h
    have l₁ := kid_lt (r := .term) (s := s) (List.mem_singleton.2 rfl : Pair.node .inner_term s₁ ks₁ ∈ [Pair.node .inner_term s₁ ks₁])
    rcases Sh.alt h₁ with h₁ | h₁
    · obtain ⟨s₂, ks₂, rfl, h₂, _⟩ := h₁.call
      have l₂ := kid_lt (r := .inner_term) (s := s₁) (List.mem_singleton.2 rfl : Pair.node .commun_base s₂ ks₂ ∈ [Pair.node .commun_base s₂ ks₂])
      have kids : ∀ {r : Rule} {s₃ : Tx} {ks₃ : List Pair}, ks₂ = [.node r s₃ ks₃] → ∀ x ∈ ks₃, Sh U (Good dbg st) (.call .term) [x] →
          Np st (cTerm dbg x) := by
        rintro r s₃ ks₃ rfl x hx hs
        have l₃ := kid_lt (r := .commun_base) (s := s₂) (List.mem_singleton.2 rfl : Pair.node r s₃ ks₃ ∈ [Pair.node r s₃ ks₃])
        have l₄ := kid_lt (r := r) (s := s₃) hx
        exact ih (by omega) hs
      rcases Sh.alt h₂ with h₂ | h₂
      · obtain ⟨s₃, ks₃, rfl, h₃, _⟩ := h₂.call
        have ih' := kids rfl
        simp [cTerm]
        obtain ⟨a, b, rfl, ha, hb⟩ := (Sh.lit_then h₃).then
        obtain ⟨c, d, rfl, hc, hd⟩ := hb.lit_then.then
        have hd := hd.lit_then
        obtain ⟨a, rfl, _⟩ := ha.one
        obtain ⟨c, rfl, _⟩ := hc.one
        obtain ⟨d, rfl, _⟩ := hd.one
        exact np_bind (bnd_np ha) fun _ _ => np_bind (ih' c (by simp) hc) fun _ _ => np_bind (ih' d (by simp) hd) fun _ _ => np_ok
      rcases h₂.alt with h₂ | h₂
      · obtain ⟨s₃, ks₃, rfl, h₃, _⟩ := h₂.call
        have ih' := kids rfl
        simp [cTerm]
        obtain ⟨a, b, rfl, ha, hb⟩ := (Sh.lit_then h₃).then
        obtain ⟨c, d, rfl, hc, hd⟩ := hb.then
        have hc := hc.bracketed
        have hd := hd.lit_then.bracketed
        obtain ⟨a, rfl, _⟩ := ha.one
        obtain ⟨c, rfl, _⟩ := hc.one
        obtain ⟨d, rfl, _⟩ := hd.one
        exact np_bind (ih' a (by simp) ha) fun _ _ => np_bind (ih' c (by simp) hc) fun _ _ => np_bind (ih' d (by simp) hd) fun _ _ => np_ok
      rcases h₂.alt with h₂ | h₂
      · obtain ⟨s₃, ks₃, rfl, h₃, _⟩ := h₂.call
        have ih' := kids rfl
        simp [cTerm]
        obtain ⟨a, b, rfl, ha, hb⟩ := (Sh.lit_then h₃).lit_then.then
        obtain ⟨c, d, rfl, hc, hd⟩ := hb.lit_then.lit_then.then
        have hc := hc.bracketed
        obtain ⟨d, e, rfl, hd, he⟩ := hd.lit_then.then
        have hd' := hd.bracketed
        have he := he.lit_then.bracketed
        obtain ⟨a, rfl, _⟩ := ha.one
        obtain ⟨c, rfl, _⟩ := hc.one
        obtain ⟨d, rfl, _⟩ := hd'.one
        obtain ⟨e, rfl, _⟩ := he.one
        exact np_bind (bnds_np ha) fun _ _ => np_bind (ih' c (by simp) hc) fun _ _ => np_bind (ih' d (by simp) hd') fun _ _ =>
          np_bind (ih' e (by simp) he) fun _ _ => np_ok
      rcases h₂.alt with h₂ | h₂
      · obtain ⟨s₃, ks₃, rfl, h₃, _⟩ := h₂.call
        have ih' := kids rfl
        simp [cTerm]
        obtain ⟨a, b, rfl, ha, hb⟩ := Sh.then h₃
        obtain ⟨c, d, rfl, hc, hd⟩ := hb.then
        have hd := hd.bracketed
        obtain ⟨a, rfl, _⟩ := ha.one
        obtain ⟨c, rfl, _⟩ := hc.one
        obtain ⟨d, rfl, _⟩ := hd.one
        exact np_bind (quant_np ha) fun _ _ => np_bind (bnds_np hc) fun _ _ => np_bind (ih' d (by simp) hd) fun _ _ => np_ok
      rcases h₂.alt with h₂ | h₂
      · obtain ⟨s₃, ks₃, rfl, h₃, hg, _⟩ := h₂.call
        have := macro_np h₃ hg fun x hx hs => ih (by
          have l₃ := kid_lt (r := .commun_base) (s := s₂) (List.mem_singleton.2 rfl : Pair.node .macro_application s₃ ks₃ ∈ [Pair.node .macro_application s₃ ks₃])
          omega) hs
        simp only [cTerm]
        simp [this]
      · obtain ⟨s₃, ks₃, rfl, h₃, hg, _⟩ := h₂.call
        simp [cTerm]
        exact np_bind (appl_np h₃ hg (kids rfl)) fun _ _ => np_ok
    · obtain ⟨s₂, ks₂, rfl, h₂, hg, _⟩ := h₁.call
      have l₂ := kid_lt (r := .inner_term) (s := s₁) (List.mem_singleton.2 rfl : Pair.node .infix_term s₂ ks₂ ∈ [Pair.node .infix_term s₂ ks₂])
      have ih' : ∀ x ∈ ks₂, Sh U (Good dbg st) (.call .term) [x] → Np st (cTerm dbg x) := by
        intro x hx hs
        have l₄ := kid_lt (r := .infix_term) (s := s₂) hx
        exact ih (by omega) hs
      simp [cTerm]
      obtain ⟨a, b, rfl, ha, hb⟩ := (Sh.lit_then h₂).then
      obtain ⟨c, d, rfl, hc, hd⟩ := hb.then_lit.then
      obtain ⟨e, f, rfl, he, hf⟩ := hc.then
      obtain ⟨L, rfl, hL⟩ := hd.many
      obtain ⟨a, rfl, _⟩ := ha.one
      obtain ⟨e, rfl, her⟩ := he.one
      obtain ⟨f, rfl, _⟩ := hf.one
      simp only [List.cons_append, List.nil_append, cInfix]
      refine np_bind (ih' a (by simp) ha) fun _ _ => np_bind (op_np he) fun o ho => np_bind (ih' f (by simp) hf) fun _ _ =>
        np_bind (infixRest_np fun l hl => ?_) fun _ _ => np_ok
      obtain ⟨u, v, rfl, hu, hv⟩ := (hL l hl).then
      obtain ⟨u, rfl, hur⟩ := hu.one
      obtain ⟨v, rfl, _⟩ := hv.one
      refine ⟨u, v, rfl, op_np hu, ih' v ?_ hv, fun hst o' ho' => op_same (hg.ops hst rfl e ?_ u ?_ her hur) ho ho'⟩
      · simp only [List.cons_append, List.nil_append, List.mem_cons, List.mem_flatten]
        exact .inr (.inr (.inr ⟨_, hl, by simp⟩))
      · simp [Pair.kids]
      · simp only [Pair.kids, List.cons_append, List.nil_append, List.mem_cons, List.mem_flatten]
        exact .inr (.inr (.inr ⟨_, hl, by simp⟩))

theorem tm_np {p : Pair} (h : Sh U (Good dbg st) (.call .term) [p]) : Np st (cTerm dbg p) := term_np (sizeOf p + 1) (by omega) h

/-! ### Statements -/

theorem options_np {p : Pair} (h : Sh U (Good dbg st) (.call .options) [p]) : Np st (cOptions dbg p) := by
  obtain ⟨s, ks, hp, h', _⟩ := h.call
  cases hp
  exact np_chk (by simp [Pair.rule]) (np_all fun x hx => ident_pair ((Sh.lit_then h').then_lit.many_call x hx))

theorem opts_np {p : List Pair} (h : Sh U (Good dbg st) (.opt (.call .options)) p) : Np st (cOpts dbg p) := by
  rcases h.opt with rfl | h
  · exact np_ok
  · obtain ⟨k, rfl, _⟩ := h.one
    exact options_np h

theorem fargs_np {p : Pair} (h : Sh U (Good dbg st) (.call .declare_function_args) [p]) : Np st (cFunArgs dbg p) := by
  obtain ⟨s, ks, hp, h', _⟩ := h.call
  cases hp
  exact np_chk (by simp [Pair.rule]) (np_all fun x hx => name_np rfl (Sh.opt_listOf h' x hx))

theorem fun_np {r : Rule} {kw : Tx} (hr : gram U r = (.lit kw ~~ .call .function ~~ .call .declare_function_args ~~ .lit c!":" ~~
    .call .type_name ~~ .opt (.call .options))) {mk : String → List String → String → List String → Stm} {s : Tx} {ks : List Pair}
    (h : Sh U (Good dbg st) (gram U r) ks) : Np st (cFun dbg r mk (.node r s ks)) := by
  rw [hr] at h
  obtain ⟨a, b, rfl, ha, hb⟩ := h.lit_then.then
  obtain ⟨c, d, rfl, hc, hd⟩ := hb.then
  obtain ⟨e, f, rfl, he, hf⟩ := hd.lit_then.then
  obtain ⟨a, rfl, _⟩ := ha.one
  obtain ⟨c, rfl, _⟩ := hc.one
  obtain ⟨e, rfl, _⟩ := he.one
  exact np_chk (by simp [Pair.rule]) (np_bind (name_np rfl ha) fun _ _ => np_bind (fargs_np hc) fun _ _ =>
    np_bind (name_np rfl he) fun _ _ => np_bind (opts_np hf) fun _ _ => np_ok)

theorem asg_np {p : Pair} (h : Sh U (Good dbg st) (.call .assignement) [p]) : Np st (cAsg dbg p) := by
  obtain ⟨s, ks, hp, h', _⟩ := h.call
  cases hp
  obtain ⟨a, b, rfl, ha, hb⟩ := Sh.then h'
  obtain ⟨c, d, rfl, hc, hd⟩ := hb.then
  have hd := hd.lit_then
  obtain ⟨a, rfl, _⟩ := ha.one
  obtain ⟨s₂, ks₂, rfl, h₂, hg, _⟩ := hc.call
  obtain ⟨d, rfl, _⟩ := hd.one
  exact np_chk (by simp [Pair.rule]) (np_bind (np_chk (by simp [Pair.rule]) (appl_np h₂ hg fun x _ hx => tm_np hx)) fun _ _ =>
    np_bind (tm_np hd) fun _ _ => np_bind (bnds_np ha) fun _ _ => np_ok)

theorem step_np (hds : dbg = true → st = true) {s : Tx} {ks : List Pair} (h : Sh U (Good dbg st) (gram U .step) ks)
    (hG : Good dbg st (.node .step s ks)) : Np st (cStep dbg (.node .step s ks)) := by
  obtain ⟨a, b, rfl, ha, hb⟩ := (Sh.lit_then h).then
  obtain ⟨c, d, rfl, hc, hd⟩ := hb.then
  obtain ⟨e, f, rfl, he, hf⟩ := hd.then
  obtain ⟨g, i, rfl, hg, hi⟩ := hf.then
  obtain ⟨j, k, rfl, hj, hk⟩ := hi.then
  have he := he.bracketed
  have hg := hg.bracketed
  obtain ⟨a, rfl, _⟩ := ha.one
  obtain ⟨c, rfl, _⟩ := hc.one
  obtain ⟨e, rfl, _⟩ := he.one
  obtain ⟨g, rfl, _⟩ := hg.one
  have key : Np st (cStepEnd dbg (j ++ k)[0]? (j ++ k)[1]?) ∧ (j ++ k).length ≤ 2 := by
    rcases hj.opt with rfl | hj
    · rcases hk.opt with rfl | hk
      · exact ⟨np_ok, by simp⟩
      · obtain ⟨o, rfl, ho⟩ := hk.one
        obtain ⟨rfl, hk'⟩ := hG.step rfl a c e g o rfl ho
        refine ⟨?_, by simp⟩
        obtain ⟨r, s', ks⟩ := o
        have hk' : ks = [] := hk'
        subst hk'
        exact np_ok
    · obtain ⟨s₂, ks₂, rfl, h₂, _⟩ := hj.call
      have hA : Np st (cAsgs dbg (.node .assignements s₂ ks₂)) :=
        np_chk (by simp [Pair.rule]) (np_all fun x hx => asg_np (Sh.listOf h₂ x hx))
      refine ⟨?_, ?_⟩
      · have e0 : ([Pair.node .assignements s₂ ks₂] ++ k)[0]? = some (.node .assignements s₂ ks₂) := rfl
        rw [e0, cStepEnd]
        cases hA' : cAsgs dbg (.node .assignements s₂ ks₂) with
        | panic => exact absurd hA' hA.1
        | loop => exact absurd hA' hA.2.1
        | ok as =>
          refine np_bind ?_ fun _ _ => np_ok
          rcases hk.opt with rfl | hk
          · exact np_ok
          · obtain ⟨o, rfl, ho⟩ := hk.one
            exact options_np hk
        | err =>
          cases st with
          | true => exact absurd hA' (hA.2.2 rfl)
          | false =>
            have : dbg = false := by
              cases dbg with
              | false => rfl
              | true => exact absurd (hds rfl) nofun
            subst this
            refine np_bind ?_ fun _ _ => np_ok
            exact np_all fun x hx => np_ok
      · rcases hk.opt with rfl | hk
        · simp
        · obtain ⟨o, rfl, ho⟩ := hk.one
          simp
  refine np_chk (by simp [Pair.rule]) (np_bind (name_np rfl ha) fun _ _ => np_bind (bnds_np hc) fun _ _ => np_bind (tm_np he) fun _ _ =>
    np_bind (tm_np hg) fun _ _ => np_bind key.1 fun _ _ => ?_)
  show Np st (if (j ++ k).length ≤ 2 then _ else _)
  rw [if_pos key.2]
  exact np_ok

theorem assertion_np {p : Pair} (h : Sh U (Good dbg st) (.call .assertion_inner) [p]) : Np st (cAssertion dbg p) := by
  obtain ⟨s, ks, hp, h', _⟩ := h.call
  cases hp
  obtain ⟨a, b, rfl, ha, hb⟩ := Sh.then h'
  obtain ⟨a, rfl, _⟩ := ha.one
  exact np_chk (by simp [Pair.rule]) (np_bind (tm_np ha) fun _ _ => np_bind (opts_np hb) fun _ _ => np_ok)

theorem assert_np {r : Rule} {kw s : Tx} {ks : List Pair} (hr : gram U r = (.lit kw ~~ .call .assertion_inner))
    (hr' : r = .assertion ∨ r = .query ∨ r = .«lemma») (h : Sh U (Good dbg st) (gram U r) ks) : Np st (cAssert dbg (.node r s ks)) := by
  rw [hr] at h
  have h := h.lit_then
  obtain ⟨k, rfl, _⟩ := h.one
  rcases hr' with rfl | rfl | rfl <;>
  exact np_chk (by simp [Pair.rule]) (np_bind (assertion_np h) fun _ _ => np_ok)

theorem order_np {s : Tx} {ks : List Pair} (h : Sh U (Good dbg st) (gram U .order) ks) : Np st (cOrder dbg (.node .order s ks)) := by
  obtain ⟨a, b, rfl, ha, hb⟩ := (Sh.lit_then h).then
  obtain ⟨c, d, rfl, hc, hd⟩ := hb.then
  obtain ⟨e, f, rfl, he, hf⟩ := hd.then
  have he : Sh U (Good dbg st) innerOrder e := by
    rcases he.alt with he | he
    · exact he
    · exact he.lit_then.then_lit
  obtain ⟨g, i, rfl, hg, hi⟩ := he.then
  obtain ⟨j, k, rfl, hj, hk⟩ := hi.then
  obtain ⟨m, n, rfl, hm, hn⟩ := hk.then
  obtain ⟨a, rfl, _⟩ := ha.one
  obtain ⟨c, rfl, _⟩ := hc.one
  obtain ⟨j, rfl, hjr⟩ := hj.one
  obtain ⟨m, rfl, _⟩ := hm.one
  obtain ⟨n, rfl, _⟩ := hn.one
  refine np_chk (by simp [Pair.rule]) ?_
  have last : ∀ (q : AQ) (v : List Bnd) (o : Option Tm), Np st ((cTerm dbg j).bind fun t1 => (cOrdOp dbg m).bind fun op =>
      (cTerm dbg n).bind fun t2 => (cOpts dbg f).bind fun l => (.ok (.order q v o t1 op t2 l) : Out Stm)) := fun q v o =>
    np_bind (tm_np hj) fun _ _ => np_bind (ordop_np hm) fun _ _ => np_bind (tm_np hn) fun _ _ => np_bind (opts_np hf) fun _ _ => np_ok
  rcases hg.opt with rfl | hg
  · refine np_bind (quant_np ha) fun q _ => np_bind (bnds_np hc) fun v _ => ?_
    obtain ⟨jr, js, jk⟩ := j
    have : jr = .term := hjr
    subst this
    exact last q v none
  · obtain ⟨s₂, ks₂, rfl, h₂, _⟩ := hg.call
    obtain ⟨x, y, rfl, hx, hy⟩ := Sh.then h₂
    obtain ⟨x, rfl, _⟩ := hx.one
    exact np_bind (quant_np ha) fun q _ => np_bind (bnds_np hc) fun v _ => np_bind (tm_np hx) fun g _ => last q v (some g)

theorem crypto_np {s : Tx} {ks : List Pair} (h : Sh U (Good dbg st) (gram U .assertion_crypto) ks) :
    Np st (cCrypto dbg (.node .assertion_crypto s ks)) := by
  obtain ⟨a, b, rfl, ha, hb⟩ := (Sh.lit_then h).then
  obtain ⟨c, d, rfl, hc, hd⟩ := hb.then
  have hc := hc.many_call
  obtain ⟨a, rfl, _⟩ := ha.one
  have hall : Np st (cAll (cName dbg .function) c) := np_all fun x hx => name_np rfl (hc x hx)
  refine np_chk (by simp [Pair.rule]) ?_
  simp only [Pair.kids, List.cons_append, List.nil_append]
  refine np_bind (ident_pair ha) fun _ _ => ?_
  rcases hd.opt with rfl | hd
  · rw [List.append_nil]
    split
    · rename_i o ho
      obtain ⟨k, hk, hr⟩ := (hc o (List.mem_of_getLast? ho)).one
      cases hk
      rw [if_neg (by rw [hr]; decide)]
      exact np_bind hall fun _ _ => np_ok
    · exact np_ok
  · obtain ⟨d, rfl, hr⟩ := hd.one
    rw [List.getLast?_concat, List.dropLast_concat]
    simp only [hr, if_true]
    exact np_bind (options_np hd) fun _ _ => np_bind hall fun _ _ => np_ok

theorem mac_np {s : Tx} {ks : List Pair} (h : Sh U (Good dbg st) (gram U .mlet) ks) : Np st (cMac dbg (.node .mlet s ks)) := by
  obtain ⟨a, b, rfl, ha, hb⟩ := (Sh.lit_then h).then
  obtain ⟨c, d, rfl, hc, hd⟩ := hb.then
  obtain ⟨e, f, rfl, he, hf⟩ := hd.lit_then.then
  obtain ⟨s₂, ks₂, rfl, h₂, _⟩ := ha.call
  obtain ⟨x, y, rfl, hx, hy⟩ := Sh.seq h₂
  have := hy.lit
  subst this
  obtain ⟨x, rfl, _⟩ := hx.one
  obtain ⟨c, rfl, _⟩ := hc.one
  obtain ⟨e, rfl, _⟩ := he.one
  exact np_chk (by simp [Pair.rule]) (np_bind (np_chk (by simp [Pair.rule]) (ident_pair hx)) fun _ _ => np_bind (bnds_np hc) fun _ _ =>
    np_bind (tm_np he) fun _ _ => np_bind (opts_np hf) fun _ _ => np_ok)

theorem decl_np {s : Tx} {ks : List Pair} (h : Sh U (Good dbg st) (gram U .declaration) ks) :
    Np st (cDeclaration dbg (.node .declaration s ks)) := by
  refine np_chk (by simp [Pair.rule]) ?_
  rcases Sh.alt h with h | h
  · obtain ⟨s₂, ks₂, rfl, h₂, _⟩ := h.call
    obtain ⟨a, b, rfl, ha, hb⟩ := (Sh.lit_then h₂).then
    obtain ⟨a, rfl, _⟩ := ha.one
    exact np_chk (by simp [Pair.rule]) (np_bind (name_np rfl ha) fun _ _ => np_bind (opts_np hb) fun _ _ => np_ok)
  rcases h.alt with h | h
  · obtain ⟨s₂, ks₂, rfl, h₂, _⟩ := h.call
    exact fun_np rfl h₂
  · obtain ⟨s₂, ks₂, rfl, h₂, _⟩ := h.call
    exact fun_np rfl h₂

theorem stm_np (hds : dbg = true → st = true) {p : Pair} (h : Sh U (Good dbg st) (.call .content) [p]) : Np st (cStm dbg p) := by
  obtain ⟨s, ks, hp, h', _⟩ := h.call
  cases hp
  refine np_chk (by simp [Pair.rule]) ?_
  rcases Sh.alt h' with h | h
  · obtain ⟨s₂, ks₂, rfl, h₂, _⟩ := h.call; exact decl_np h₂
  rcases h.alt with h | h
  · obtain ⟨s₂, ks₂, rfl, h₂, hg, _⟩ := h.call; exact step_np hds h₂ hg
  rcases h.alt with h | h
  · obtain ⟨s₂, ks₂, rfl, h₂, _⟩ := h.call; exact assert_np rfl (.inl rfl) h₂
  rcases h.alt with h | h
  · obtain ⟨s₂, ks₂, rfl, h₂, _⟩ := h.call; exact order_np h₂
  rcases h.alt with h | h
  · obtain ⟨s₂, ks₂, rfl, h₂, _⟩ := h.call; exact assert_np rfl (.inr (.inl rfl)) h₂
  rcases h.alt with h | h
  · obtain ⟨s₂, ks₂, rfl, h₂, _⟩ := h.call; exact assert_np rfl (.inr (.inr rfl)) h₂
  rcases h.alt with h | h
  · obtain ⟨s₂, ks₂, rfl, h₂, _⟩ := h.call; exact crypto_np h₂
  · obtain ⟨s₂, ks₂, rfl, h₂, _⟩ := h.call; exact mac_np h₂

end
end Txt2

open Txt2 in
open Prs (Out) in
/-- The reader on a text that the grammar accepts, if all the pairs are good. -/
theorem Txt2.file_np {dbg st : Bool} (hds : dbg = true → st = true) {U : Char → Bool} {n : Nat} {s t' : Tx} {ps : List Pair}
    (h : run (gram U) n (.call .file) s = some (some (ps, t'))) (hg : ∀ k ∈ ps, Every (Good dbg st) k) {r : Out (List Stm)}
    (hr : readFile dbg U n s = some r) : Np st r := by
  rw [readFile, h] at hr
  obtain ⟨s', rfl, hsh⟩ := run_shape n h
  cases hsh with
  | @call _ _ ks hsh =>
    cases hr
    have hk := hg _ List.mem_cons_self
    cases hk with
    | node _ _ _ _ hk =>
    have hf : Sh U (Good dbg st) (gram U .file) _ := ⟨s', hk, hsh⟩
    refine np_all fun x hx => ?_
    obtain ⟨hx, hc⟩ := List.mem_filter.1 hx
    simp only [decide_eq_true_eq] at hc
    obtain ⟨a, b, e, ha, hb⟩ := (Sh.lit_then hf).then
    rw [show (Pair.node Rule.file s' _).kids = _ from e] at hx
    have hstm : ∀ {q : List Pair}, Sh U (Good dbg st) (.call .content ~~ .opt (.lit c!";")) q → ∀ x ∈ q, Sh U (Good dbg st) (.call .content) [x] := by
      intro q hq x hx
      obtain ⟨u, v, rfl, hu, hv⟩ := hq.then
      have : v = [] := by
        rcases hv.opt with rfl | hv
        · rfl
        · exact hv.lit
      subst this
      obtain ⟨k, rfl, _⟩ := hu.one
      rw [List.append_nil, List.mem_singleton] at hx
      rw [hx]
      exact hu
    rcases List.mem_append.1 hx with hx | hx
    · obtain ⟨u, v, rfl, hu, hv⟩ := ha.then
      rcases List.mem_append.1 hx with hx | hx
      · exact stm_np hds (hstm hu x hx)
      · obtain ⟨L, rfl, hL⟩ := hv.many
        obtain ⟨l, hl, hx⟩ := List.mem_flatten.1 hx
        exact stm_np hds (hstm (hL l hl) x hx)
    · obtain ⟨k, rfl, hk⟩ := hb.one
      rw [List.mem_singleton.1 hx, hk] at hc
      cases hc

namespace Txt2

/-- SPECIFICATION. The pair is the other one, or inside it. -/
inductive Within (q : Pair) : Pair → Prop
  | here : Within q q
  | kid (r : Rule) (s : Tx) (ks : List Pair) (k : Pair) : k ∈ ks → Within q k → Within q (.node r s ks)

/-- SPECIFICATION. The text is a file for the grammar, and this is the pair for all of it. -/
def Parses (U : Char → Bool) (s : Tx) (p : Pair) : Prop :=
  ∃ t n, ∀ m, n ≤ m → run (gram U) m (.call .file) s = some (some ([p], t))

/-- SPECIFICATION. `msg!` or `cond!`. -/
def IsMsg (n : Pair) : Prop := n.text = c!"msg!" ∨ n.text = c!"cond!"

/-- SPECIFICATION. What can crash a release build: `msg!` and `cond!` without an argument, `msg!` and `cond!` of a `try find` without
variables, and a step with options but no assignments. -/
inductive Crash (q : Pair) : Prop
  | noArg (n : Pair) : q.rule = .macro_application → q.kids = [n] → IsMsg n → Crash q
  | find (n a : Pair) (l : List Pair) (k v : Pair) (l' : List Pair) : q.rule = .macro_application → q.kids = n :: a :: l → IsMsg n →
      opened [a] = some k → k.rule = .find_such_that → k.kids = v :: l' → v.kids = [] → Crash q
  | opts (n a c m o : Pair) : q.rule = .step → q.kids = [n, a, c, m, o] → o.rule = .options → o.kids ≠ [] → Crash q

variable {U : Char → Bool} {P Q : Pair → Prop}

theorem Every.within {p q : Pair} (h : Every P p) (hq : Within q p) : P q := by
  induction hq with
  | here => cases h; assumption
  | kid r s ks k hk _ ih =>
    cases h with
    | node _ _ _ _ h => exact ih (h k hk)

theorem every_of : ∀ (n : Nat) {p : Pair}, sizeOf p < n → (∀ q, Within q p → P q) → Every P p := by
  intro n
  induction n with
  | zero => intro p h; omega
  | succ n ih =>
    intro p hn h
    obtain ⟨r, s, ks⟩ := p
    exact .node r s ks (h _ .here) fun k hk => ih (by have := kid_lt (r := r) (s := s) hk; omega) fun q hq => h q (.kid r s ks k hk hq)

/-- Every pair inside is one of its rule. -/
theorem shape_every {e : G} {s : Tx} {ps : List Pair} (h : Shape U e s ps) :
    ∀ k ∈ ps, Every (fun q => Shape U (.call q.rule) q.text [q]) k := by
  induction h with
  | lit s => simp
  | chr p c hp => simp
  | seq _ _ h₁ h₂ => exact fun k hk => (List.mem_append.1 hk).elim (h₁ k) (h₂ k)
  | alt1 _ h => exact h
  | alt2 _ _ h => exact h
  | star0 => simp
  | star1 _ _ h₁ h₂ => exact fun k hk => (List.mem_append.1 hk).elim (h₁ k) (h₂ k)
  | opt0 => simp
  | opt1 _ h => exact h
  | neg => simp
  | call h ih =>
    intro k hk
    rw [List.mem_singleton.1 hk]
    exact .node _ _ _ (.call h) ih

theorem shape_infix {e : G} {s : Tx} {ps : List Pair} (h : Shape U e s ps) : ∀ k ∈ ps, k.text <:+: s := by
  induction h with
  | lit s => simp
  | chr p c hp => simp
  | @seq _ _ s s' _ _ _ _ h₁ h₂ =>
    exact fun k hk => (List.mem_append.1 hk).elim (fun h => (h₁ k h).trans (List.prefix_append s s').isInfix)
      (fun h => (h₂ k h).trans (List.suffix_append s s').isInfix)
  | alt1 _ h => exact h
  | alt2 _ _ h => exact h
  | star0 => simp
  | @star1 _ s s' _ _ _ _ h₁ h₂ =>
    exact fun k hk => (List.mem_append.1 hk).elim (fun h => (h₁ k h).trans (List.prefix_append s s').isInfix)
      (fun h => (h₂ k h).trans (List.suffix_append s s').isInfix)
  | opt0 => simp
  | opt1 _ h => exact h
  | neg => simp
  | call h ih =>
    intro k hk
    rw [List.mem_singleton.1 hk]
    exact List.infix_refl _

theorem within_infix {p q : Pair} (h : Every (fun q => Shape U (.call q.rule) q.text [q]) p) (hq : Within q p) : q.text <:+: p.text := by
  induction hq with
  | here => exact List.infix_refl _
  | kid r s ks k hk _ ih =>
    cases h with
    | node _ _ _ h₀ h =>
      cases h₀ with
      | call h₀ => exact (ih (h k hk)).trans (shape_infix h₀ k hk)

theorem Within.trans {p q r : Pair} (h : Within p q) (h' : Within q r) : Within p r := by
  induction h' with
  | here => exact h
  | kid r s ks k hk _ ih => exact .kid r s ks k hk ih

/-- A term has something inside. -/
theorem term_opened {a : Pair} {l : List Pair} (h : Sh U P (.call .term) [a]) : ∃ k, opened (a :: l) = some k ∧ opened [a] = some k := by
  obtain ⟨s₁, _, e, h₁, _⟩ := h.call
  cases e
  obtain ⟨s₂, ks₂, rfl, h₂, _⟩ := Sh.call h₁
  rcases Sh.alt h₂ with h₂ | h₂
  · obtain ⟨s₃, ks₃, rfl, h₃, _⟩ := h₂.call
    have : ∃ k, ks₃ = [k] := by
      rcases Sh.alt h₃ with h | h
      · obtain ⟨k, e, _⟩ := h.one; exact ⟨k, e⟩
      rcases Sh.alt h with h | h
      · obtain ⟨k, e, _⟩ := h.one; exact ⟨k, e⟩
      rcases Sh.alt h with h | h
      · obtain ⟨k, e, _⟩ := h.one; exact ⟨k, e⟩
      rcases Sh.alt h with h | h
      · obtain ⟨k, e, _⟩ := h.one; exact ⟨k, e⟩
      rcases Sh.alt h with h | h
      · obtain ⟨k, e, _⟩ := h.one; exact ⟨k, e⟩
      · obtain ⟨k, e, _⟩ := h.one; exact ⟨k, e⟩
    obtain ⟨k, rfl⟩ := this
    exact ⟨k, rfl, rfl⟩
  · obtain ⟨s₃, ks₃, rfl, h₃, _⟩ := h₂.call
    obtain ⟨a, b, rfl, ha, hb⟩ := (Sh.lit_then h₃).then
    obtain ⟨k, rfl, _⟩ := ha.one
    exact ⟨k, rfl, rfl⟩

theorem every_true (p : Pair) : Every (fun _ => True) p := every_of _ (Nat.lt_succ_self _) fun _ _ => trivial

/-- Without what crashes, all is good for a release build. -/
theorem good_of {q : Pair} (hs : Shape U (.call q.rule) q.text [q]) (h : ¬ Crash q) : Good false false q where
  mac hr n l hk hm := by
    obtain ⟨r, s, ks⟩ := q
    simp only [Pair.rule, Pair.kids] at hr hk
    subst hr
    subst hk
    cases l with
    | nil => exact absurd (.noArg n rfl rfl hm) h
    | cons a l =>
      have hsh : Sh U (fun _ => True) (.call .macro_application) [.node .macro_application s (n :: a :: l)] :=
        ⟨_, fun k _ => every_true k, hs⟩
      obtain ⟨_, _, e, hsh, _⟩ := hsh.call
      cases e
      obtain ⟨x, y, e, hx, hy⟩ := Sh.then hsh
      obtain ⟨x, rfl, _⟩ := hx.one
      cases e
      have hy : ∀ z ∈ a :: l, Sh U (fun _ => True) (.call .term) [z] := by
        rcases hy.opt with hy | hy
        · cases hy
        · exact hy.inner
      obtain ⟨k, hk, hk'⟩ := term_opened (l := l) (hy a List.mem_cons_self)
      exact ⟨k, hk, nofun, fun hr v l' hv hn => h (.find n a l k v l' rfl rfl hm hk' hr hv hn), nofun⟩
  step hr n a c m o hk ho := ⟨rfl, by
    by_cases he : o.kids = []
    · exact he
    · exact absurd (.opts n a c m o hr hk ho he) h⟩
  app := nofun
  ops := nofun

theorem Parses.every {s : Tx} {p : Pair} (h : Parses U s p) :
    Every (fun q => Shape U (.call q.rule) q.text [q]) p ∧ p.text <:+: s := by
  obtain ⟨t, n, h⟩ := h
  obtain ⟨s', e, hs⟩ := run_shape n (h n (Nat.le_refl n))
  refine ⟨shape_every hs p List.mem_cons_self, (shape_infix hs p List.mem_cons_self).trans ?_⟩
  rw [e]
  exact (List.prefix_append s' t).isInfix

/-- Either the grammar refuses the text, and so does the reader, or there is a tree. -/
theorem parses_or (dbg : Bool) (U : Char → Bool) (s : Tx) : (∃ p, Parses U s p) ∨ Reads dbg U s .err ∧ ¬ ∃ p, Parses U s p := by
  obtain ⟨r, n, hn⟩ := C73_reading_ends dbg U s
  have h := hn n (Nat.le_refl n)
  rw [readFile] at h
  split at h
  · cases h
  · rename_i e
    refine .inr ⟨⟨n, fun m hm => ?_⟩, ?_⟩
    · rw [readFile, run_le e hm]
    · rintro ⟨p, t, n', hp⟩
      have := hp (max n n') (Nat.le_max_right n n')
      rw [run_le e (Nat.le_max_left n n')] at this
      cases this
  · rename_i ps t' e
    obtain ⟨s', _, hs⟩ := run_shape n e
    cases hs with
    | call hs => exact .inl ⟨_, t', n, fun m hm => run_le e hm⟩

end Txt2

open Txt2 in
open Prs (Out) in
/-- **C74.** A release build crashes on a text only if this has one of three mistakes: `msg!` or `cond!` without an argument, `msg!` or
`cond!` of a `try find` without variables, or a step with options and no assignments. -/
theorem C74_crashes (U : Char → Bool) (s : Tx) (h : Reads false U s .panic) : ∃ p q, Parses U s p ∧ Within q p ∧ Crash q := by
  rcases parses_or false U s with ⟨p, hp⟩ | ⟨he, _⟩
  · refine ⟨p, ?_⟩
    by_contra hc
    have hg : Every (Good false false) p := every_of _ (Nat.lt_succ_self _) fun q hq =>
      good_of (hp.every.1.within hq) fun hq' => hc ⟨q, hp, hq, hq'⟩
    obtain ⟨n, hn⟩ := h
    obtain ⟨t, m, hm⟩ := hp
    have := file_np (dbg := false) (st := false) nofun (hm (max n m) (Nat.le_max_right n m)) (by simpa using hg) (hn (max n m) (Nat.le_max_left n m))
    exact this.1 rfl
  · exact absurd (h.unique he) nofun

open Txt2 in
open Prs (Out) in
/-- **C74.** Where the grammar accepts, so does the reader, if what it finds is good: no `msg!` and `cond!` without an argument, or of
what they are not for, no options without assignments, no two different operators between the same brackets. -/
theorem C74_accepts (dbg : Bool) (U : Char → Bool) (s : Tx) (p : Pair) (hp : Parses U s p) (hg : ∀ q, Within q p → Good dbg true q) :
    ∃ l, Reads dbg U s (.ok l) := by
  have hg : Every (Good dbg true) p := every_of _ (Nat.lt_succ_self _) hg
  obtain ⟨r, n, hn⟩ := C73_reading_ends dbg U s
  obtain ⟨t, m, hm⟩ := hp
  have := file_np (fun _ => rfl) (hm (max n m) (Nat.le_max_right n m)) (by simpa using hg) (hn (max n m) (Nat.le_max_left n m))
  cases r with
  | ok l => exact ⟨l, n, hn⟩
  | err => exact absurd rfl (this.2.2 rfl)
  | panic => exact absurd rfl this.1
  | loop => exact absurd rfl this.2.1

open Txt2 in
open Prs (Out) in
/-- **C74.** In terms of the text alone: without `msg!`, `cond!` and `[`, a release build never crashes. -/
theorem C74_no_crash (U : Char → Bool) (s : Tx) (h₁ : ¬ c!"msg!" <:+: s) (h₂ : ¬ c!"cond!" <:+: s) (h₃ : '[' ∉ s) :
    ¬ Reads false U s .panic := by
  intro h
  obtain ⟨p, q, hp, hq, hc⟩ := C74_crashes U s h
  obtain ⟨he, hs⟩ := hp.every
  have sub : ∀ k ∈ q.kids, k.text <:+: s ∧ Shape U (.call k.rule) k.text [k] := by
    intro k hk
    have hw : Within k p := by
      obtain ⟨r, s', ks⟩ := q
      exact Within.trans (.kid r s' ks k hk .here) hq
    exact ⟨(within_infix he hw).trans hs, he.within hw⟩
  have msg : ∀ n ∈ q.kids, ¬ IsMsg n := by
    intro n hn hm
    have := (sub n hn).1
    rcases hm with hm | hm <;> rw [hm] at this
    · exact h₁ this
    · exact h₂ this
  cases hc with
  | noArg n _ hk hm => exact msg n (by simp [hk]) hm
  | find n a l k v l' _ hk hm => exact msg n (by simp [hk]) hm
  | opts n a c m o _ hk ho _ =>
    obtain ⟨hi, hs⟩ := sub o (by simp [hk])
    obtain ⟨r, s', ks⟩ := o
    cases ho
    cases hs with
    | call hs =>
      cases hs with
      | seq hl _ =>
        cases hl
        exact h₃ (hi.subset (by simp [Pair.text]))

end CV
