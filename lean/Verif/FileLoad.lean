/-
From the text of a file to the problem: the composition of Grammar.lean (reading) and Load.lean (loading), as in
`run_from_cv` and `run_from_ast` (/repo/crates/cryptovampire/src/lib.rs). Both work on the same syntax tree in the
code; here the second one has its own, smaller, type of statements.
-/
import Verif.GrammarBugs
import Verif.LoadMain
set_option linter.unusedSimpArgs false

namespace CV
namespace Txt2
open Prs

/-- The name of the cell assigned and the arguments (parser/ast/application.rs:20-36: `name` and `args`). -/
def Appl.parts : Appl → String × List Tm
  | .const s => (s, [])
  | .app f args => (f, args)

/-- An assignment as the loader reads it (parse_step_cell_asserts/step.rs:88-163). -/
def Asg.decl (a : Asg) : AssignDecl := ⟨a.fresh, a.cell.parts.1, a.cell.parts.2, a.term⟩

/-- A statement as the loader reads it: without the options that nothing reads. -/
def Stm.decl : Stm → Decl
  | .type n _ => .type n
  | .func n a s _ => .func n a s
  | .cell n a s _ => .cell n a s
  | .step n a c m as _ => .step ⟨n, a, c, m, (as.getD []).map Asg.decl⟩
  | .order q v g t₁ op t₂ _ => .order ⟨q, v, t₁, t₂, op, g⟩
  | .crypto n fs o => .crypto ⟨n, fs, o⟩
  | .assert .assert t _ => .assertion t
  | .assert .lemma t _ => .lem t
  | .assert .query t _ => .query t
  | .mac n a t _ => .mac n a t

/-- Models `run_from_cv` up to the problem (src/lib.rs:46-69, parser/parser/parsing_environement.rs:273: `parse_pbl_from_ast`): reading, then loading into the
environment of the built-in symbols. `n` bounds the nesting of the grammar's rules and `k` that of the elaborator; `ord` is the order
of a hash map. -/
def loadText (dbg : Bool) (U : Char → Bool) (ord : List (String × Cache) → List (String × Cache)) (n k : Nat) (ig sh : Bool) (s : Tx) :
    Option (Out LProblem) :=
  (readFile dbg U n s).map fun r => r.bind fun l => load ord k ig (env0 sh) (l.map Stm.decl)

/-! ### What is read is in the elaborator's grammar -/

theorem bind_ok {α β : Type} {x : Out α} {f : α → Out β} {y : β} (h : x.bind f = .ok y) : ∃ a, x = .ok a ∧ f a = .ok y := by
  cases x <;> simp [Out.bind] at h ⊢
  exact h

theorem gram_tm {a : Appl} (h : ∀ t ∈ a.parts.2, Gram t) : Gram a.tm := by
  cases a with
  | const s => exact .cvar
  | app f args => exact .app h

theorem ite_ok {α : Type} {c : Prop} [Decidable c] {k : Out α} {y : α} (h : (if c then Out.panic else k) = .ok y) : k = .ok y := by
  split at h
  · cases h
  · exact h

mutual
theorem gram_cTerm (dbg : Bool) : ∀ (p : Pair) (t : Tm), cTerm dbg p = .ok t → Gram t
  | .node r _ ks, t, h => by
    rw [cTerm.eq_def] at h
    dsimp only at h
    have h := ite_ok h
    split at h
    · rename_i r₁ _ ks₁
      have h := ite_ok h
      split at h
      · exact gram_cInfix dbg _ t h
      · split at h
        · exact gram_cLet dbg _ t h
        · exact gram_cIf dbg _ t h
        · exact gram_cFind dbg _ t h
        · exact gram_cQuantifier dbg _ t h
        · obtain ⟨a, ha, h⟩ := bind_ok h
          cases h
          exact gram_tm (gram_cAppl dbg _ a ha)
        · exact gram_cMacro dbg _ t h
        · cases h
        · cases h
      · cases h
      · cases h
    · cases h
theorem gram_cLet (dbg : Bool) : ∀ (l : List Pair) (t : Tm), cLet dbg l = .ok t → Gram t
  | [v, t1, t2], t, h => by
    simp only [cLet] at h
    obtain ⟨v, -, h⟩ := bind_ok h
    obtain ⟨a, ha, h⟩ := bind_ok h
    obtain ⟨b, hb, h⟩ := bind_ok h
    cases h
    exact .letin (gram_cTerm dbg _ _ ha) (gram_cTerm dbg _ _ hb)
  | [], t, h => by simp [cLet] at h
  | [_], t, h => by simp [cLet] at h
  | [_, _], t, h => by simp [cLet] at h
  | _ :: _ :: _ :: _ :: _, t, h => by simp [cLet] at h
theorem gram_cIf (dbg : Bool) : ∀ (l : List Pair) (t : Tm), cIf dbg l = .ok t → Gram t
  | [c, t1, t2], t, h => by
    simp only [cIf] at h
    obtain ⟨c, hc, h⟩ := bind_ok h
    obtain ⟨a, ha, h⟩ := bind_ok h
    obtain ⟨b, hb, h⟩ := bind_ok h
    cases h
    exact .ite (gram_cTerm dbg _ _ hc) (gram_cTerm dbg _ _ ha) (gram_cTerm dbg _ _ hb)
  | [], t, h => by simp [cIf] at h
  | [_], t, h => by simp [cIf] at h
  | [_, _], t, h => by simp [cIf] at h
  | _ :: _ :: _ :: _ :: _, t, h => by simp [cIf] at h
theorem gram_cFind (dbg : Bool) : ∀ (l : List Pair) (t : Tm), cFind dbg l = .ok t → Gram t
  | [v, c, t1, t2], t, h => by
    simp only [cFind] at h
    obtain ⟨v, -, h⟩ := bind_ok h
    obtain ⟨c, hc, h⟩ := bind_ok h
    obtain ⟨a, ha, h⟩ := bind_ok h
    obtain ⟨b, hb, h⟩ := bind_ok h
    cases h
    exact .find (gram_cTerm dbg _ _ hc) (gram_cTerm dbg _ _ ha) (gram_cTerm dbg _ _ hb)
  | [], t, h => by simp [cFind] at h
  | [_], t, h => by simp [cFind] at h
  | [_, _], t, h => by simp [cFind] at h
  | [_, _, _], t, h => by simp [cFind] at h
  | _ :: _ :: _ :: _ :: _ :: _, t, h => by simp [cFind] at h
theorem gram_cQuantifier (dbg : Bool) : ∀ (l : List Pair) (t : Tm), cQuantifier dbg l = .ok t → Gram t
  | [k, v, c], t, h => by
    simp only [cQuantifier] at h
    obtain ⟨k, -, h⟩ := bind_ok h
    obtain ⟨v, -, h⟩ := bind_ok h
    obtain ⟨c, hc, h⟩ := bind_ok h
    cases h
    exact .quant (gram_cTerm dbg _ _ hc)
  | [], t, h => by simp [cQuantifier] at h
  | [_], t, h => by simp [cQuantifier] at h
  | [_, _], t, h => by simp [cQuantifier] at h
  | _ :: _ :: _ :: _ :: _, t, h => by simp [cQuantifier] at h
theorem gram_cAppl (dbg : Bool) : ∀ (l : List Pair) (a : Appl), cAppl dbg l = .ok a → ∀ t ∈ a.parts.2, Gram t
  | [], a, h => by simp [cAppl] at h
  | [name], a, h => by simp only [cAppl, Out.ok.injEq] at h; subst h; simp [Appl.parts]
  | name :: b :: args, a, h => by
    simp only [cAppl] at h
    split at h
    · cases h
    · cases h
    · obtain ⟨_, _, h⟩ := bind_ok h
      cases h
    · rename_i args' ha
      obtain ⟨_, _, h⟩ := bind_ok h
      cases h
      exact gram_cTerms dbg _ _ ha
theorem gram_cInfix (dbg : Bool) : ∀ (l : List Pair) (t : Tm), cInfix dbg l = .ok t → Gram t
  | t1 :: op :: t2 :: l, t, h => by
    simp only [cInfix] at h
    obtain ⟨a, ha, h⟩ := bind_ok h
    obtain ⟨o, -, h⟩ := bind_ok h
    obtain ⟨b, hb, h⟩ := bind_ok h
    obtain ⟨r, hr, h⟩ := bind_ok h
    cases h
    refine .infx (by simp only [List.length_cons]; split <;> omega) fun x hx => ?_
    rcases List.mem_cons.1 hx with rfl | hx
    · exact gram_cTerm dbg _ _ ha
    rcases List.mem_cons.1 hx with rfl | hx
    · exact gram_cTerm dbg _ _ hb
    · exact gram_cInfixRest dbg o _ _ hr x hx
  | [t1], t, h => by
    simp only [cInfix] at h
    obtain ⟨_, _, h⟩ := bind_ok h
    cases h
  | [t1, op], t, h => by
    simp only [cInfix] at h
    obtain ⟨_, _, h⟩ := bind_ok h
    obtain ⟨_, _, h⟩ := bind_ok h
    cases h
  | [], t, h => by simp [cInfix] at h
theorem gram_cInfixRest (dbg : Bool) (o : Op) : ∀ (l : List Pair) (ts : List Tm), cInfixRest dbg o l = .ok ts → ∀ t ∈ ts, Gram t
  | [], ts, h => by simp only [cInfixRest, Out.ok.injEq] at h; subst h; simp
  | [op], ts, h => by
    simp only [cInfixRest] at h
    obtain ⟨_, _, h⟩ := bind_ok h
    split at h <;> cases h
  | op :: t :: l, ts, h => by
    simp only [cInfixRest] at h
    obtain ⟨_, _, h⟩ := bind_ok h
    split at h
    · obtain ⟨a, ha, h⟩ := bind_ok h
      obtain ⟨r, hr, h⟩ := bind_ok h
      cases h
      intro x hx
      rcases List.mem_cons.1 hx with rfl | hx
      · exact gram_cTerm dbg _ _ ha
      · exact gram_cInfixRest dbg o _ _ hr x hx
    · cases h
theorem gram_cMacro (dbg : Bool) : ∀ (l : List Pair) (t : Tm), cMacro dbg l = .ok t → Gram t
  | [], t, h => by simp [cMacro] at h
  | [name], t, h => by
    simp only [cMacro] at h
    obtain ⟨n, _, h⟩ := bind_ok h
    split at h
    · obtain ⟨a, ha, h⟩ := bind_ok h
      cases h
      exact .mac (gram_cTerms dbg _ _ ha)
    · cases h
  | name :: .node r₁ s₁ [] :: l, t, h => by
    simp only [cMacro] at h
    obtain ⟨n, _, h⟩ := bind_ok h
    split at h
    · obtain ⟨a, ha, h⟩ := bind_ok h
      cases h
      exact .mac (gram_cTerms dbg _ _ ha)
    · cases ite_ok h
  | name :: .node r₁ s₁ (.node r₂ s₂ [] :: l₂) :: l, t, h => by
    simp only [cMacro] at h
    obtain ⟨n, _, h⟩ := bind_ok h
    split at h
    · obtain ⟨a, ha, h⟩ := bind_ok h
      cases h
      exact .mac (gram_cTerms dbg _ _ ha)
    · cases ite_ok (ite_ok h)
  | name :: .node r₁ s₁ (.node r₂ s₂ (.node r₃ s₃ [] :: l₃) :: l₂) :: l, t, h => by
    simp only [cMacro] at h
    obtain ⟨n, _, h⟩ := bind_ok h
    split at h
    · obtain ⟨a, ha, h⟩ := bind_ok h
      cases h
      exact .mac (gram_cTerms dbg _ _ ha)
    · cases ite_ok (ite_ok (ite_ok h))
  | name :: .node r₁ s₁ (.node r₂ s₂ (.node r₃ s₃ (.node r₄ s₄ ks₄ :: l₄) :: l₃) :: l₂) :: l, t, h => by
    simp only [cMacro] at h
    obtain ⟨n, _, h⟩ := bind_ok h
    split at h
    · obtain ⟨a, ha, h⟩ := bind_ok h
      cases h
      exact .mac (gram_cTerms dbg _ _ ha)
    · obtain ⟨a, ha, h⟩ := bind_ok (ite_ok (ite_ok (ite_ok (ite_ok h))))
      have hg := gram_cAppl dbg ks₄ a ha
      have h := Out.ok.inj h
      subst h
      cases a <;> cases mkind n <;> first | exact .msg hg | exact .cond hg
theorem gram_cTerms (dbg : Bool) : ∀ (l : List Pair) (ts : List Tm), cTerms dbg l = .ok ts → ∀ t ∈ ts, Gram t
  | [], ts, h => by simp only [cTerms, Out.ok.injEq] at h; subst h; simp
  | p :: l, ts, h => by
    simp only [cTerms] at h
    obtain ⟨a, ha, h⟩ := bind_ok h
    obtain ⟨r, hr, h⟩ := bind_ok h
    cases h
    intro x hx
    rcases List.mem_cons.1 hx with rfl | hx
    · exact gram_cTerm dbg _ _ ha
    · exact gram_cTerms dbg _ _ hr x hx
end

/-- The terms of a statement. -/
def GramStm : Stm → Prop
  | .step _ _ c m as _ => Gram c ∧ Gram m ∧ ∀ a ∈ as.getD [], Gram a.term ∧ ∀ t ∈ a.cell.parts.2, Gram t
  | .order _ _ g t₁ _ t₂ _ => Gram t₁ ∧ Gram t₂ ∧ ∀ x, g = some x → Gram x
  | .assert _ t _ => Gram t
  | .mac _ _ t _ => Gram t
  | _ => True

theorem chk_ok_fl {α : Type} {dbg : Bool} {p : Pair} {rs : List Rule} {k : Out α} {y : α} (h : chk dbg p rs k = .ok y) : k = .ok y := by
  simp only [chk] at h
  split at h
  · cases h
  · exact h

theorem gram_cAsg {dbg : Bool} {p : Pair} {a : Asg} (h : cAsg dbg p = .ok a) : Gram a.term ∧ ∀ t ∈ a.cell.parts.2, Gram t := by
  have h := chk_ok_fl h
  split at h
  · obtain ⟨c, hc, h⟩ := bind_ok h
    obtain ⟨t, ht, h⟩ := bind_ok h
    cases h
    exact ⟨gram_cTerm dbg _ _ ht, gram_cAppl dbg _ _ (chk_ok_fl hc)⟩
  · obtain ⟨c, hc, h⟩ := bind_ok h
    obtain ⟨t, ht, h⟩ := bind_ok h
    obtain ⟨v, hv, h⟩ := bind_ok h
    cases h
    exact ⟨gram_cTerm dbg _ _ ht, gram_cAppl dbg _ _ (chk_ok_fl hc)⟩
  · cases h

theorem cAll_mem {α : Type} {f : Pair → Out α} : ∀ {l : List Pair} {r : List α}, cAll f l = .ok r → ∀ a ∈ r, ∃ p ∈ l, f p = .ok a
  | [], r, h => by simp only [cAll, Out.ok.injEq] at h; subst h; simp
  | p :: l, r, h => by
    simp only [cAll] at h
    obtain ⟨a, ha, h⟩ := bind_ok h
    obtain ⟨r', hr, h⟩ := bind_ok h
    cases h
    intro x hx
    rcases List.mem_cons.1 hx with rfl | hx
    · exact ⟨p, by simp, ha⟩
    · obtain ⟨q, hq, h⟩ := cAll_mem hr x hx
      exact ⟨q, by simp [hq], h⟩

theorem gram_cStepEnd {dbg : Bool} {r5 r6 : Option Pair} {e} (h : cStepEnd dbg r5 r6 = .ok e) :
    ∀ a ∈ e.1.getD [], Gram a.term ∧ ∀ t ∈ a.cell.parts.2, Gram t := by
  simp only [cStepEnd] at h
  split at h
  · obtain ⟨o, _, h⟩ := bind_ok h
    cases h
    simp
  · split at h
    · cases h
    · cases h
    · obtain ⟨o, _, h⟩ := bind_ok h
      cases h
      simp
    · rename_i as ha
      obtain ⟨o, _, h⟩ := bind_ok h
      cases h
      intro a ham
      obtain ⟨p, _, hp⟩ := cAll_mem (chk_ok_fl ha) a ham
      exact gram_cAsg hp

theorem gram_cAssertion {dbg : Bool} {p : Pair} {r} (h : cAssertion dbg p = .ok r) : Gram r.1 := by
  have h := chk_ok_fl h
  split at h
  · obtain ⟨t, ht, h⟩ := bind_ok h
    obtain ⟨o, _, h⟩ := bind_ok h
    cases h
    exact gram_cTerm dbg _ _ ht
  · cases h

theorem gram_cFun {dbg : Bool} {r : Rule} {mk} {p : Pair} {a : Stm} (hm : ∀ n as s o, GramStm (mk n as s o)) (h : cFun dbg r mk p = .ok a) :
    GramStm a := by
  have h := chk_ok_fl h
  split at h
  · obtain ⟨_, _, h⟩ := bind_ok h
    obtain ⟨_, _, h⟩ := bind_ok h
    obtain ⟨_, _, h⟩ := bind_ok h
    obtain ⟨_, _, h⟩ := bind_ok h
    cases h
    exact hm _ _ _ _
  · cases h

theorem gram_cStm {dbg : Bool} {p : Pair} {a : Stm} (h : cStm dbg p = .ok a) : GramStm a := by
  have h := chk_ok_fl h
  split at h
  · cases h
  · rename_i k _
    dsimp only at h
    split at h
    · have h := chk_ok_fl h
      split at h
      · cases h
      · dsimp only at h
        split at h
        · have h := chk_ok_fl h
          split at h
          · obtain ⟨_, _, h⟩ := bind_ok h
            obtain ⟨_, _, h⟩ := bind_ok h
            cases h
            trivial
          · cases h
        · refine gram_cFun (fun _ _ _ _ => ?_) h; trivial
        · refine gram_cFun (fun _ _ _ _ => ?_) h; trivial
        · cases h
      · cases h
    · have h := chk_ok_fl h
      split at h
      · obtain ⟨_, _, h⟩ := bind_ok h
        obtain ⟨_, _, h⟩ := bind_ok h
        obtain ⟨c, hc, h⟩ := bind_ok h
        obtain ⟨m, hm, h⟩ := bind_ok h
        obtain ⟨e, he, h⟩ := bind_ok h
        split at h
        · cases h
          exact ⟨gram_cTerm dbg _ _ hc, gram_cTerm dbg _ _ hm, gram_cStepEnd he⟩
        · cases h
      · cases h
    · have h := chk_ok_fl h
      split at h
      · obtain ⟨q, _, h⟩ := bind_ok h
        obtain ⟨as, _, h⟩ := bind_ok h
        dsimp only at h
        split at h
        · split at h
          · cases h
          · obtain ⟨g, hg, h⟩ := bind_ok h
            split at h
            · obtain ⟨t1, h1, h⟩ := bind_ok h
              obtain ⟨op, _, h⟩ := bind_ok h
              obtain ⟨t2, h2, h⟩ := bind_ok h
              obtain ⟨o, _, h⟩ := bind_ok h
              cases h
              exact ⟨gram_cTerm dbg _ _ h1, gram_cTerm dbg _ _ h2, fun x hx => by cases hx; exact gram_cTerm dbg _ _ hg⟩
            · cases h
        · split at h
          · obtain ⟨t1, h1, h⟩ := bind_ok h
            obtain ⟨op, _, h⟩ := bind_ok h
            obtain ⟨t2, h2, h⟩ := bind_ok h
            obtain ⟨o, _, h⟩ := bind_ok h
            cases h
            exact ⟨gram_cTerm dbg _ _ h1, gram_cTerm dbg _ _ h2, nofun⟩
          · cases h
      · cases h
    · have h := chk_ok_fl h
      split at h
      · cases h
      · obtain ⟨_, _, h⟩ := bind_ok h
        split at h
        · split at h
          · obtain ⟨_, _, h⟩ := bind_ok h
            obtain ⟨_, _, h⟩ := bind_ok h
            cases h
            trivial
          · obtain ⟨_, _, h⟩ := bind_ok h
            cases h
            trivial
        · cases h
          trivial
    all_goals try
      have h := chk_ok_fl h
      split at h
      · cases h
      · split at h
        · obtain ⟨r, hr, h⟩ := bind_ok h
          cases h
          exact gram_cAssertion hr
        · obtain ⟨r, hr, h⟩ := bind_ok h
          cases h
          exact gram_cAssertion hr
        · obtain ⟨r, hr, h⟩ := bind_ok h
          cases h
          exact gram_cAssertion hr
        · cases h
    · have h := chk_ok_fl h
      split at h
      · obtain ⟨_, _, h⟩ := bind_ok h
        obtain ⟨_, _, h⟩ := bind_ok h
        obtain ⟨t, ht, h⟩ := bind_ok h
        obtain ⟨_, _, h⟩ := bind_ok h
        cases h
        exact gram_cTerm dbg _ _ ht
      · cases h
    · cases h
  · cases h

theorem gram_read {dbg : Bool} {U : Char → Bool} {n : Nat} {s : Tx} {l : List Stm} (h : readFile dbg U n s = some (.ok l)) :
    ∀ a ∈ l, GramStm a := by
  simp only [readFile] at h
  split at h
  · cases h
  · cases h
  · split at h
    · cases h
    · intro a ha
      obtain ⟨p, _, hp⟩ := cAll_mem (Option.some.inj h) a ha
      exact gram_cStm hp

theorem fileGram {l : List Stm} (h : ∀ a ∈ l, GramStm a) : FileGram (l.map Stm.decl) where
  asserts t ht := by
    rcases ht with ht | ht | ht <;>
    · obtain ⟨a, ha, he⟩ := List.mem_map.1 ht
      have := h a ha
      rcases a with _ | _ | _ | _ | _ | _ | ⟨k, t', o⟩ | _ <;> try cases k
      all_goals simp only [Stm.decl, Decl.assertion.injEq, Decl.lem.injEq, Decl.query.injEq, reduceCtorEq] at he
      subst he
      exact this
  macs n ps b hb := by
    obtain ⟨a, ha, he⟩ := List.mem_map.1 hb
    have := h a ha
    rcases a with _ | _ | _ | _ | _ | _ | ⟨k, t', o⟩ | _ <;> try cases k
    all_goals simp only [Stm.decl, Decl.mac.injEq, reduceCtorEq] at he
    obtain ⟨rfl, rfl, rfl⟩ := he
    exact this
  steps d hd := by
    obtain ⟨a, ha, he⟩ := List.mem_map.1 hd
    have := h a ha
    rcases a with _ | _ | _ | _ | _ | _ | ⟨k, t', o⟩ | _ <;> try cases k
    all_goals simp only [Stm.decl, Decl.step.injEq, reduceCtorEq] at he
    subst he
    refine ⟨this.2.1, this.1, fun x hx => ?_⟩
    obtain ⟨y, hy, rfl⟩ := List.mem_map.1 hx
    exact this.2.2 y hy
  orders o ho := by
    obtain ⟨a, ha, he⟩ := List.mem_map.1 ho
    have := h a ha
    rcases a with _ | _ | _ | _ | _ | _ | ⟨k, t', o⟩ | _ <;> try cases k
    all_goals simp only [Stm.decl, Decl.order.injEq, reduceCtorEq] at he
    subst he
    exact this

/-! ### C78 -/

/-- **C78.** Loading the text of a list of statements is loading the statements: whatever the blanks, comments and spellings, in both
builds. -/
theorem C78_text (dbg : Bool) (U : Char → Bool) (ord : List (String × Cache) → List (String × Cache)) (k : Nat) (ig sh : Bool)
    (l : List Stm) (s : Tx) (h : WFile U l s) :
    ∃ n, ∀ m, n ≤ m → loadText dbg U ord m k ig sh s = some (load ord k ig (env0 sh) (l.map Stm.decl)) := by
  obtain ⟨n, hn⟩ := C72_file_read dbg U l s h
  exact ⟨n, fun m hm => by simp only [loadText, hn m hm, Option.map_some, Out.bind]⟩

/-- SPECIFICATION. The file declares a function into a type that is not one of the five the solver's term algebra is made of. -/
def BadOut (l : List Stm) : Prop :=
  ∃ n a o os, Stm.func n a o os ∈ l ∧ (o = "Bitstring" ∨ ∃ os', Stm.type o os' ∈ l)

theorem outsTA {l : List Stm} {sh : Bool} (h : ¬ BadOut l) : OutsTA (env0 sh) (l.map Stm.decl) := by
  intro n a o hd
  obtain ⟨x, hx, he⟩ := List.mem_map.1 hd
  rcases x with _ | ⟨n', a', o', os⟩ | _ | _ | _ | _ | ⟨k, t', o'⟩ | _ <;> try cases k
  all_goals simp only [Stm.decl, Decl.func.injEq, reduceCtorEq] at he
  obtain ⟨rfl, rfl, rfl⟩ := he
  refine ⟨fun ht => h ?_, fun s hs => ?_⟩
  · simp only [typeNames, List.mem_filterMap] at ht
    obtain ⟨d, hd, hdo⟩ := ht
    obtain ⟨y, hy, rfl⟩ := List.mem_map.1 hd
    rcases y with ⟨ty, os'⟩ | _ | _ | _ | _ | _ | ⟨k, t', o'⟩ | _ <;> try cases k
    all_goals simp only [Stm.decl, Option.some.injEq, reduceCtorEq] at hdo
    subst hdo
    exact ⟨_, _, _, _, hx, Or.inr ⟨_, hy⟩⟩
  · by_cases hb : o' = "Bitstring"
    · exact absurd ⟨_, _, _, _, hx, Or.inl hb⟩ h
    · simp only [env0, builtinSorts, List.lookup] at hs
      repeat' split at hs
      all_goals first
        | (simp only [Option.some.injEq] at hs; subst hs; simp; done)
        | (rename_i hq; simp only [beq_iff_eq] at hq; exact absurd hq hb)
        | (cases hs)

theorem crash_or {U : Char → Bool} {ord : List (String × Cache) → List (String × Cache)} (hord : ∀ l, (ord l).Perm l) {k : Nat}
    {ig sh : Bool} {s : Tx} {n : Nat} (h : loadText false U ord n k ig sh s = some .panic) :
    Reads false U s .panic ∨ ∃ l, Reads false U s (.ok l) ∧ BadOut l := by
  cases hr : readFile false U n s with
  | none => simp [loadText, hr] at h
  | some r =>
    have hR : Reads false U s r := .at n hr
    cases r with
    | panic => exact Or.inl hR
    | ok l =>
      refine Or.inr ⟨l, hR, ?_⟩
      by_contra hb
      simp only [loadText, hr, Option.map_some, Out.bind, Option.some.injEq] at h
      exact C56_no_panic_partial ord hord (env0 sh) (env0_base sh) (by simp [env0]) k ig _ (fileGram (gram_read hr)) (outsTA hb) h
    | err => simp [loadText, hr, Out.bind] at h
    | loop => simp [loadText, hr, Out.bind] at h

/-- **C78.** When a release build crashes on a text before the problem is built, either the text contains one of the three mistakes of C74, or
it declares a function into a type of the file or `Bitstring`. -/
theorem C78_crashes (U : Char → Bool) (ord : List (String × Cache) → List (String × Cache)) (hord : ∀ l, (ord l).Perm l) (k : Nat)
    (ig sh : Bool) (s : Tx) (n : Nat) (h : loadText false U ord n k ig sh s = some .panic) :
    (∃ p q, Parses U s p ∧ Within q p ∧ Crash q) ∨ ∃ l, Reads false U s (.ok l) ∧ BadOut l :=
  (crash_or hord h).imp (C74_crashes U s) id

/-- **C78.** Without `msg!`, `cond!` and `[` in the text, and functions only into the five types of the term algebra, a release build never
crashes before the problem is built. -/
theorem C78_no_crash (U : Char → Bool) (ord : List (String × Cache) → List (String × Cache)) (hord : ∀ l, (ord l).Perm l) (k : Nat)
    (ig sh : Bool) (s : Tx) (h₁ : ¬ c!"msg!" <:+: s) (h₂ : ¬ c!"cond!" <:+: s) (h₃ : '[' ∉ s)
    (h₄ : ∀ l, Reads false U s (.ok l) → ¬ BadOut l) (n : Nat) : loadText false U ord n k ig sh s ≠ some .panic := by
  intro h
  rcases crash_or hord h with hc | ⟨l, hl, hb⟩
  · exact C74_no_crash U s h₁ h₂ h₃ hc
  · exact h₄ l hl hb

/-- The terms of the assertions, lemmas or queries of a file, in order. -/
def asserted (k : AKind) (l : List Stm) : List Tm := l.filterMap fun | .assert k' t _ => if k' = k then some t else none | _ => none

theorem asserted_decl (l : List Stm) : assertionsOf (l.map Stm.decl) = asserted .assert l ∧ lemmasOf (l.map Stm.decl) = asserted .lemma l ∧
    queriesOf (l.map Stm.decl) = asserted .query l := by
  refine ⟨?_, ?_, ?_⟩ <;>
  · simp only [assertionsOf, lemmasOf, queriesOf, asserted, List.filterMap_map]
    congr 1
    funext a
    rcases a with _ | _ | _ | _ | _ | _ | ⟨k, t', o⟩ | _ <;> first | rfl | (cases k <;> rfl)

theorem steps_decl (l : List Stm) : (stepDecls (l.map Stm.decl)).map (·.name) = l.filterMap fun | .step n _ _ _ _ _ => some n | _ => none := by
  simp only [stepDecls, List.filterMap_map, List.map_filterMap]
  congr 1
  funext a
  rcases a with _ | _ | _ | _ | _ | _ | ⟨k, t', o⟩ | _ <;> first | rfl | (cases k <;> rfl)

/-- **C78.** The problem loaded from a text that reads as a list of statements (C72 and C75 say what that means for the text) has one formula for each assertion and lemma, in order, and one for the
only query, which mean what the statements mean; and the steps of the file, each once, `init` first. -/
theorem C78_problem (dbg : Bool) (U : Char → Bool) (ord : List (String × Cache) → List (String × Cache)) (hord : ∀ l, (ord l).Perm l)
    (n k : Nat) (ig sh : Bool) (l : List Stm) (s : Tx) (P : LProblem) (hw : Reads dbg U s (.ok l)) (h : loadText dbg U ord n k ig sh s = some (.ok P)) :
    List.Forall₂ (AssertOk P.env.toEnv P.tbl) (asserted .assert l) P.assertions ∧
    List.Forall₂ (AssertOk P.env.toEnv P.tbl) (if ig then [] else asserted .lemma l) P.lemmas ∧
    (∃ q, asserted .query l = [q] ∧ AssertOk P.env.toEnv P.tbl q P.query) ∧
    (P.steps.map (·.name)).Nodup ∧ P.steps.head?.map (·.name) = some "init" ∧
    ∀ x, x ∈ P.steps.map (·.name) ↔ x = "init" ∨ ∃ a c m as o, Stm.step x a c m as o ∈ l := by
  have hl : load ord k ig (env0 sh) (l.map Stm.decl) = .ok P := by
    cases hr : readFile dbg U n s with
    | none => simp [loadText, hr] at h
    | some r =>
      have : r = .ok l := Reads.unique (.at n hr) hw
      subst this
      simpa [loadText, hr, Out.bind] using h
  obtain ⟨h1, h2, h3⟩ := asserted_decl l
  obtain ⟨_, a1, a2, a3, _⟩ := C24_problem ord hord _ (env0_base sh) k ig _ P hl
  obtain ⟨b1, b2, b3, _⟩ := C54_steps_partial ord hord _ (env0_base sh) k ig _ P hl
  rw [h1] at a1
  rw [h2] at a2
  rw [h3] at a3
  refine ⟨a1, a2, a3, b1, b2, fun x => ?_⟩
  rw [b3, steps_decl]
  refine or_congr Iff.rfl ?_
  simp only [List.mem_filterMap]
  constructor
  · rintro ⟨a, ha, hx⟩
    rcases a with _ | _ | _ | ⟨y, _, _, _, _, _⟩ | _ | _ | _ | _ <;> simp only [Option.some.injEq, reduceCtorEq] at hx
    subst hx
    exact ⟨_, _, _, _, _, ha⟩
  · rintro ⟨a, c, m, as, o, h⟩
    exact ⟨_, h, rfl⟩

/-! ### Examples -/

section
variable (U : Char → Bool)
set_option maxRecDepth 100000

/-- A text that is loaded. -/
def exText : Tx := c!"type T fun n(T):Name fun f(Message):Message step s(i:T) {true} {f(n(i))} query forall (i:T) {happens(s(i))}"

example : ∃ P, loadText false U id 120 20 false true exText = some (.ok P) := ⟨_, by with_unfolding_all rfl⟩

example (dbg : Bool) (P : LProblem) (h : loadText dbg U id 120 20 false true exText = some (.ok P)) :
    P.assertions = [] ∧ ∀ x, x ∈ P.steps.map (·.name) ↔ x = "init" ∨ x = "s" := by
  have hr : Reads dbg U exText (.ok _) := .at 120 (by cases dbg <;> with_unfolding_all rfl)
  obtain ⟨h1, -, -, -, -, h2⟩ := C78_problem dbg U id (fun _ => .refl _) 120 20 false true _ exText P hr h
  refine ⟨?_, fun x => (h2 x).trans (or_congr Iff.rfl ?_)⟩
  · have : List.Forall₂ (AssertOk P.env.toEnv P.tbl) [] P.assertions := h1
    generalize P.assertions = Q at this
    cases this
    rfl
  · simp
    exact ⟨fun h => h.trans (by decide), fun h => h.trans (by decide)⟩

example (dbg : Bool) := C78_text dbg U id 20 false true _ _ (file_example U)

example (n k : Nat) : loadText false U id n k false true exText ≠ some .panic :=
  C78_no_crash U id (fun _ => .refl _) k false true exText (by decide) (by decide) (by decide) (by
    intro l hl
    have : Reads false U exText (.ok _) := .at 120 (by with_unfolding_all rfl)
    have := Reads.unique hl this
    simp only [Out.ok.injEq] at this
    subst this
    rintro ⟨n, a, o, os, hm, ho⟩
    simp only [List.mem_cons, List.not_mem_nil, reduceCtorEq, Stm.func.injEq, Stm.type.injEq, or_false, false_or] at hm ho
    rcases hm with ⟨_, _, rfl, _⟩ | ⟨_, _, rfl, _⟩ <;> revert ho <;> simp <;> decide) n

/-- **C78, refuted without the condition on functions.** -/
theorem C78_crash_counterexample (sh : Bool) :
    loadText false U id 120 20 false sh c!"fun f():Bitstring query true" = some .panic ∧
    loadText false U id 120 20 false sh c!"type T fun f():T query true" = some .panic := by
  cases sh <;> exact ⟨by with_unfolding_all rfl, by with_unfolding_all rfl⟩

end

end Txt2
end CV
