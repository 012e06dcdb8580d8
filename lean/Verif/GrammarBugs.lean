import Verif.GrammarSafe
import Verif.GrammarStm
/-
Texts that the reader of Grammar.lean reads otherwise than they are meant, or on which it crashes; and examples for the theorems on
reading.
-/
set_option linter.unusedVariables false
set_option maxRecDepth 100000
namespace CV
namespace Txt2
open Prs (Out)

theorem Reads.at {dbg : Bool} {U : Char → Bool} {s : Tx} {r : Out (List Stm)} (n : Nat) (h : readFile dbg U n s = some r) :
    Reads dbg U s r := by
  obtain ⟨r', m, hm⟩ := C73_reading_ends dbg U s
  have hr : readFile dbg U (max n m) s = some r := by
    rw [readFile] at h ⊢
    split at h
    · cases h
    · rename_i e; rw [run_le e (Nat.le_max_left n m)]; exact h
    · rename_i e; rw [run_le e (Nat.le_max_left n m)]; exact h
  rw [hm _ (Nat.le_max_right n m)] at hr
  cases hr
  exact ⟨m, hm⟩

end Txt2

open Txt2
open Prs (Out)

section
variable (U : Char → Bool)

/-! ### Crashes -/

/-- **C74, refuted.** A step with options and no assignments crashes a release build. -/
theorem C74_options_counterexample : Reads false U c!"step s {a} {b} [o]" .panic := .at 120 (by with_unfolding_all rfl)

/-- **C74, refuted.** So do `msg!` and `cond!` without an argument. -/
theorem C74_msg_counterexample : Reads false U c!"assert msg!()" .panic ∧ Reads false U c!"assert cond!" .panic :=
  ⟨.at 120 (by with_unfolding_all rfl), .at 120 (by with_unfolding_all rfl)⟩

/-- **C74, refuted.** And `msg!` of a `try find` without variables. -/
theorem C74_find_counterexample :
    Reads false U c!"assert msg!(try find such that {a} then {b} else {c})" .panic := .at 120 (by with_unfolding_all rfl)

/-! ### Misreadings -/

/-- **C72, refuted.** A mistake inside the assignments of a step is not reported by a release build: the step is read without its
assignments, and their texts become its options. The same mistake elsewhere is an error. -/
theorem C72_lost_assignment_counterexample :
    Reads false U c!"step s {a} {b} {c <- (x == y && z)}" (.ok [.step (.ofList c!"s") [] (.cvar (.ofList c!"a")) (.cvar (.ofList c!"b"))
      none [.ofList c!"c <- (x == y && z)"]]) ∧
    Reads false U c!"step s {a} {(x == y && z)} {c <- x}" .err ∧
    Reads false U c!"step s {a} {b} {c <- (x == y)}" (.ok [.step (.ofList c!"s") [] (.cvar (.ofList c!"a")) (.cvar (.ofList c!"b"))
      (some [⟨some [], .const (.ofList c!"c"), .infx .eq [.cvar (.ofList c!"x"), .cvar (.ofList c!"y")]⟩]) []]) :=
  ⟨.at 120 (by with_unfolding_all rfl), .at 120 (by with_unfolding_all rfl), .at 120 (by with_unfolding_all rfl)⟩

/-- **C72, refuted.** The statement after an `assert-crypto` is read as names of functions, up to the first character that is not one
of a name; with a `;` between them the two statements are read. -/
theorem C72_swallowed_counterexample :
    Reads false U c!"assert-crypto nonce assert x" (.ok [.crypto (.ofList c!"nonce") [.ofList c!"assert", .ofList c!"x"] []]) ∧
    Reads false U c!"assert-crypto nonce; assert x"
      (.ok [.crypto (.ofList c!"nonce") [] [], .assert .assert (.cvar (.ofList c!"x")) []]) :=
  ⟨.at 120 (by with_unfolding_all rfl), .at 120 (by with_unfolding_all rfl)⟩

/-- **C72, refuted.** The option of an assertion that ends with a name is read as an argument. -/
theorem C72_option_counterexample :
    Reads false U c!"assert x [o]" (.ok [.assert .assert (.app (.ofList c!"x") [.cvar (.ofList c!"o")]) []]) :=
  .at 120 (by with_unfolding_all rfl)

/-- **C72, refuted.** `msg!` of something else than a step is read by a release build as `msg!` of a step with a name that nobody wrote,
and further arguments are dropped. -/
theorem C72_msg_counterexample :
    Reads false U c!"assert msg!((s == t))" (.ok [.assert .assert (.msg (.ofList c!"s ") []) []]) ∧
    Reads false U c!"assert msg!(if a {b} else {c})"
      (.ok [.assert .assert (.msg (.ofList c!"a ") [.cvar (.ofList c!"b"), .cvar (.ofList c!"c")]) []]) ∧
    Reads false U c!"assert msg!(s, t)" (.ok [.assert .assert (.msg (.ofList c!"s") []) []]) :=
  ⟨.at 120 (by with_unfolding_all rfl), .at 120 (by with_unfolding_all rfl), .at 120 (by with_unfolding_all rfl)⟩

/-- **C72, refuted.** Without blanks `!=` is not read after a name, as if this were the name of a macro, while `==` is. -/
theorem C72_neq_counterexample :
    Reads false U c!"assert (x!=y)" .err ∧
    Reads false U c!"assert (x==y)" (.ok [.assert .assert (.infx .eq [.cvar (.ofList c!"x"), .cvar (.ofList c!"y")]) []]) ∧
    Reads false U c!"assert (x !=y)" (.ok [.assert .assert (.infx .neq [.cvar (.ofList c!"x"), .cvar (.ofList c!"y")]) []]) :=
  ⟨.at 120 (by with_unfolding_all rfl), .at 120 (by with_unfolding_all rfl), .at 120 (by with_unfolding_all rfl)⟩

/-- **C72, refuted.** A name that starts with `if` can be read as a condition, so that a name alone is not always read as such. -/
theorem C72_keyword_counterexample :
    Reads false U c!"assert forall (x:T) {a}" (.ok [.assert .assert (.quant .all [(.ofList c!"x", .ofList c!"T")] (.cvar (.ofList c!"a"))) []]) ∧
    Reads false U c!"assert ifx {a} else {b}"
      (.ok [.assert .assert (.ite (.cvar (.ofList c!"x")) (.cvar (.ofList c!"a")) (.cvar (.ofList c!"b"))) []]) ∧
    Reads false U c!"asserting" (.ok [.assert .assert (.cvar (.ofList c!"ing")) []]) :=
  ⟨.at 120 (by with_unfolding_all rfl), .at 120 (by with_unfolding_all rfl), .at 120 (by with_unfolding_all rfl)⟩

/-! ### Examples -/

theorem Txt2.idTx_of {s : Tx} (h : s ≠ []) (h' : ∀ c ∈ s, c.toNat < 128 ∧ c.isAlpha = true) : IdTx U s := by
  cases s with
  | nil => exact absurd rfl h
  | cons c r =>
    refine ⟨c, r, rfl, ?_, fun d hd => ?_⟩
    · have := h' c (by simp)
      rw [Alpha, if_pos this.1]
      exact this.2
    · have := h' d (by simp [hd])
      have hl : Alpha U d = true := by rw [Alpha, if_pos this.1]; exact this.2
      simp [NameC, hl]

theorem Txt2.id1 (c : Char) (h : c.toNat < 128 ∧ c.isAlpha = true) : IdTx U (String.ofList [c]).toList := by
  rw [String.toList_ofList]
  exact idTx_of U (by simp) (by simpa using h)

theorem Txt2.plain1 (c : Char) (h : c.toNat < 128 ∧ c.isAlpha = true) : Plain U (String.ofList [c]).toList where
  id := id1 U c h
  nif := by rw [String.toList_ofList]; simp [List.isPrefixOf]
  ntry := by rw [String.toList_ofList]; simp
  nfind := by rw [String.toList_ofList]; simp [List.isPrefixOf]
  nlet := by rw [String.toList_ofList]; simp
  nall := by rw [String.toList_ofList]; simp
  nex := by rw [String.toList_ofList]; simp

/-- A file with a declaration, a comment, a step with an assignment, and a query with an option. -/
theorem Txt2.file_example : WFile U
    [.type (.ofList c!"T") [],
     .step (.ofList c!"s") [(.ofList c!"i", .ofList c!"T")] (.cvar (.ofList c!"a")) (.cvar (.ofList c!"b"))
       (some [⟨some [], .const (.ofList c!"c"), .cvar (.ofList c!"x")⟩]) [],
     .assert .query (.infx .eq [.app (.ofList c!"f") [.cvar (.ofList c!"x")], .cvar (.ofList c!"y")]) [.ofList c!"o"]]
    c!"type T /*one*/\nstep s(i:T) {a} {b} {c <- x}\nquery (f(x)== y ) [o]" := by
  have bl : Blank c!" " := .ws ' ' [] rfl .nil
  have nl : Blank c!"\n" := .ws '\n' [] rfl .nil
  have cv : ∀ (c : Char), c.toNat < 128 ∧ c.isAlpha = true → WAppl U true (.const (.ofList [c])) (String.ofList [c]).toList :=
    fun c h => .const _ (.inl (plain1 U c h))
  have var : ∀ (c : Char), c.toNat < 128 ∧ c.isAlpha = true → WTm U true (.cvar (.ofList [c])) (String.ofList [c]).toList :=
    fun c h => .appl true (.const (.ofList [c])) _ (cv c h)
  have h₁ : WStm U .name (.type (.ofList c!"T") []) _ := .type .name (.ofList c!"T") [] c!" " [] (id1 U 'T' (by decide)) bl .none
  have h₂ := WStm.step (U := U) .closed true true (.ofList c!"s") [(.ofList c!"i", .ofList c!"T")] (.cvar (.ofList c!"a"))
    (.cvar (.ofList c!"b")) [⟨some [], .const (.ofList c!"c"), .cvar (.ofList c!"x")⟩] [] c!" " [] _ c!" " [] _ [] c!" " [] _ [] c!" " [] _ []
    (id1 U 's' (by decide)) bl .nil (.some _ [] _ .nil (.one _ _ [] (.mk _ _ [] [] (.inl (id1 U 'i' (by decide))) (id1 U 'T' (by decide)) .nil .nil) .nil))
    bl .nil (var 'a' (by decide)) .nil bl .nil (var 'b' (by decide)) .nil bl .nil
    (.one _ _ [] (.plain true true (.const (.ofList c!"c")) _ _ c!" " c!" " _ (cv 'c' (by decide)) bl bl (var 'x' (by decide))) .nil) .none
  have h₃ := WStm.assert (U := U) .closed false .query (.infx .eq [.app (.ofList c!"f") [.cvar (.ofList c!"x")], .cvar (.ofList c!"y")])
    [.ofList c!"o"] c!" " _ _ bl
    (.infx .eq false _ _ [] _ _ .nil
      (.appl false (.app (.ofList c!"f") [.cvar (.ofList c!"x")]) _ (.app _ '(' ')' _ _ [] [] _ (plain1 U 'f' (by decide)) (.inl ⟨rfl, rfl⟩) .nil .nil
        (.one true _ _ [] (var 'x' (by decide)) .nil)))
      (by simp)
      (.cons .eq false true _ _ [] _ c!" " _ _ ⟨.nil, by simp⟩ .eq bl (var 'y' (by decide)) (.nil .eq true c!" " bl)))
    (.some _ c!" " [] _ rfl bl .nil (.one _ [] (id1 U 'o' (by decide)) .nil))
  have hb : Blank c!" /*one*/\n" := .ws ' ' _ rfl (.c c!"one" c!"\n" ⟨rfl, rfl, rfl, trivial⟩ nl)
  refine ⟨[], _, .nil, .cons .name _ _ _ _ _ h₁ hb (by simp) nofun (.cons .closed _ _ _ _ _ h₂ nl nofun nofun (.one .closed _ _ [] h₃ .nil)), ?_⟩
  simp only [String.toList_ofList]
  rfl

example (dbg : Bool) : ∃ n, ∀ m, n ≤ m → readFile dbg U m
    c!"type T /*one*/\nstep s(i:T) {a} {b} {c <- x}\nquery (f(x)== y ) [o]" = some (.ok
    [.type (.ofList c!"T") [],
     .step (.ofList c!"s") [(.ofList c!"i", .ofList c!"T")] (.cvar (.ofList c!"a")) (.cvar (.ofList c!"b"))
       (some [⟨some [], .const (.ofList c!"c"), .cvar (.ofList c!"x")⟩]) [],
     .assert .query (.infx .eq [.app (.ofList c!"f") [.cvar (.ofList c!"x")], .cvar (.ofList c!"y")]) [.ofList c!"o"]]) :=
  C72_file_read dbg U _ _ (file_example U)

end

/-- **C72.** What is written has one meaning: two lists of statements cannot be written as the same text. -/
theorem C72_unambiguous (U : Char → Bool) (l l' : List Stm) (s : Tx) (h : WFile U l s) (h' : WFile U l' s) : l = l' := by
  obtain ⟨n, hn⟩ := C72_file_read false U l s h
  obtain ⟨m, hm⟩ := C72_file_read false U l' s h'
  have := hn (max n m) (Nat.le_max_left n m)
  rw [hm _ (Nat.le_max_right n m)] at this
  cases this
  rfl

/-- **C72.** Blanks, comments, `;` and the spelling of operators do not matter: two texts of the same statements are read alike. -/
theorem C72_layout (dbg : Bool) (U : Char → Bool) (l : List Stm) (s s' : Tx) (h : WFile U l s) (h' : WFile U l s') :
    ∃ n, ∀ m, n ≤ m → readFile dbg U m s = readFile dbg U m s' := by
  obtain ⟨n, hn⟩ := C72_file_read dbg U l s h
  obtain ⟨m, hm⟩ := C72_file_read dbg U l s' h'
  exact ⟨max n m, fun k hk => by rw [hn k (by omega), hm k (by omega)]⟩

-- The hypotheses of C74.
example (U : Char → Bool) : ∃ p q, Parses U c!"step s {a} {b} [o]" p ∧ Within q p ∧ Crash q :=
  C74_crashes U _ (C74_options_counterexample U)
example (U : Char → Bool) : ¬ Reads false U c!"assert (x == y && z)" .panic :=
  C74_no_crash U _ (by decide) (by decide) (by decide)

namespace Txt2

mutual
/-- Enough for a pair to be good, for the example: no macros and no steps, and all brackets with two terms only. -/
def simple : Pair → Bool
  | .node r _ ks => (match r with
      | .macro_application => false
      | .step => false
      | .application => ks.length ≤ 1
      | .infix_term => (ks.filter fun k => k.rule = .operation).length ≤ 1
      | _ => true) && simples ks
/-- All of them. -/
def simples : List Pair → Bool
  | [] => true
  | k :: ks => simple k && simples ks
end

theorem simples_mem : ∀ {ks : List Pair}, simples ks = true → ∀ k ∈ ks, simple k = true
  | [], _, _, hk => by cases hk
  | x :: ks, h, k, hk => by
    rw [simples, Bool.and_eq_true] at h
    rcases List.mem_cons.1 hk with rfl | hk
    · exact h.1
    · exact simples_mem h.2 k hk

theorem simple_good {p q : Pair} (h : simple p = true) (hq : Within q p) : Good true true q := by
  induction hq with
  | kid r s ks k hk _ ih =>
    rw [simple.eq_def] at h
    simp only [Bool.and_eq_true] at h
    exact ih (simples_mem h.2 k hk)
  | here =>
    obtain ⟨r, s, ks⟩ := q
    rw [simple.eq_def] at h
    simp only [Bool.and_eq_true] at h
    refine ⟨?_, ?_, ?_, ?_⟩
    · intro hr; cases hr; exact absurd h.1 (by simp)
    · intro hr; cases hr; exact absurd h.1 (by simp)
    · intro _ hr n a l hk
      cases hr
      cases hk
      exact absurd h.1 (by simp)
    · intro _ hr a ha b hb hao hbo
      cases hr
      have h := h.1
      simp only [decide_eq_true_eq] at h
      have ha : a ∈ ks.filter fun k => k.rule = .operation := by simp [List.mem_filter, hao]; exact ha
      have hb : b ∈ ks.filter fun k => k.rule = .operation := by simp [List.mem_filter, hbo]; exact hb
      have : a = b := by
        generalize ks.filter (fun k => decide (k.rule = .operation)) = l at *
        match l, h with
        | [], _ => cases ha
        | [x], _ => rw [List.mem_singleton.1 ha, List.mem_singleton.1 hb]
        | _ :: _ :: _, h => simp at h
      rw [this]

end Txt2

-- The hypotheses of `C74_accepts` can be met, in a debug build.
example (U : Char → Bool) : ∃ l, Reads true U c!"assert (x == y)" (.ok l) := by
  have h : ∃ p t, run (gram U) 120 (.call .file) c!"assert (x == y)" = some (some ([p], t)) ∧ simple p = true :=
    ⟨_, _, by with_unfolding_all rfl, by with_unfolding_all rfl⟩
  obtain ⟨p, t, hp, hs⟩ := h
  exact C74_accepts true U _ p ⟨t, 120, fun m hm => run_le hp hm⟩ fun q hq => simple_good hs hq

end CV
