import Verif.BuildTextEx2
import Verif.BuildUsed
import Verif.CliProps
set_option linter.unusedSimpArgs false
set_option linter.unusedVariables false
/-
C92 and C94 for the options that a command line gives.
-/
namespace CV
namespace Bld
open Dep Ev Cry Prs Gsy Cli SmtM SmtS

/-- What the generators read of the options (environement/environement.rs:91-201), for a command line. -/
def _root_.CV.Cli.Args.opt (g : Args) (n : Nat) : Opt :=
  ⟨g.env.symbolic, g.env.noBitstringFunctions, g.env.useLegacyEvaluate, g.env.useVampireSubterm, g.env.defineSubterm, g.env.preprocessInstances, n⟩

theorem opt_symbolic (g : Args) (n : Nat) : (g.opt n).symbolic = g.symbolic := (C44_global_partial g).1

theorem opt_define (g : Args) (n : Nat) : (g.opt n).define = true := (C44_global_partial g).2.2.2.2.2.2.1

theorem opt_legacy {g : Args} {n : Nat} (h : g.legacyEvaluate = false ∨ g.symbolic = false) : (g.opt n).legacy = false := by
  rw [← Bool.not_eq_true]
  intro hn
  obtain ⟨h1, h2⟩ := (C44_global_partial g).2.2.1.1 hn
  rcases h with h | h
  · rw [h] at h1; cases h1
  · rw [h] at h2; cases h2

theorem smtOpts_evaluated (g : Args) : g.env.smtOpts.evaluated = !g.symbolic := by
  show (!g.env.symbolic) = _
  rw [(C44_global_partial g).1]

/-- **C94.** For every command line, the declarations of the file that is written for an accepted file are well formed; with `--symbolic`, whatever the
other switches, every symbol that is used in a formula of it is declared in it, or is a connective of the solver, if the input is well sorted and clean; with
`--no-bitstring` there may also be evaluated functions and the equality of bitstrings. Missing: files that are not well sorted or clean. Without these switches it is false (`C94_switches_counterexample`). -/
theorem C94_command_line_partial (a : Args) (ord : List (String × Cache) → List (String × Cache)) (hord : ∀ l, (ord l).Perm l) (n fuel : Nat)
    (l : List Prs.Decl) (P : LProblem) (B : Gen.Prob BF) (h : a.load ord fuel l = .ok P) (hB : toProb (a.opt n) P = some B)
    (g : GenFile BF) (hg : B.file = some g) :
    (∀ gid, ∀ d ∈ g.declarations, DeclOK (symInfo P gid) a.env.smtOpts.evaluated g.declarations d) ∧
    (a.symbolic = true → FileWs (env0 a.env.allowShadowing) l → FileClean (env0 a.env.allowShadowing) l →
      ∀ x ∈ g.assertions, ∀ f ∈ axSyms x, isBuiltin f = true ∨ f ∈ g.declarations.flatMap Gen.syms ∨
        a.noBitstring = true ∧ ((∃ n, f = .ev (.sym n)) ∨ f = .rw .bitstring)) := by
  refine ⟨fun gid => C94_declarations ord hord (a.opt n) _ _ fuel l P B h hB g hg gid _ fun he => ?_, fun hs hw hc x hx f hf => ?_⟩
  · rw [smtOpts_evaluated] at he
    rw [opt_symbolic]
    simpa using he
  · rcases C94_used_symbolic_partial ord hord (a.opt n) _ _ fuel l P B hw hc h hB g hg ((opt_symbolic a n).trans hs) (opt_define a n) x hx f hf with h | h | ⟨h, h'⟩
    · exact .inl h
    · exact .inr (.inl h)
    · exact .inr (.inr ⟨((C44_global_partial a).2.2.2.1.1 h).1, h'⟩)

/-- `cryptovampire --symbolic` on a file with an unforgeable function. -/
example : ∃ P B g, ({ plain none with symbolic := true }).load id 10 UsedEx.file = .ok P ∧
    toProb (({ plain none with symbolic := true }).opt 100) P = some B ∧ B.file = some g ∧
    ∀ x ∈ g.assertions, ∀ f ∈ axSyms x, isBuiltin f = true ∨ f ∈ g.declarations.flatMap Gen.syms := by
  have h := UsedEx.uses_checked
  have ho : ({ plain none with symbolic := true }).opt 100 = UsedEx.opt1 := rfl
  cases e : load id 10 false (env0 true) UsedEx.file with
  | ok P =>
    rw [e] at h
    simp only [UsedEx.usesB] at h
    cases hB : toProb UsedEx.opt1 P with
    | none => rw [hB] at h; cases h
    | some B =>
    rw [hB, Option.bind_some] at h
    cases hg : B.file with
    | none => rw [hg] at h; cases h
    | some g =>
    refine ⟨P, B, g, e, hB, hg, fun x hx f hf => ?_⟩
    rcases (C94_command_line_partial { plain none with symbolic := true } id (fun _ => List.Perm.refl _) 100 10 UsedEx.file P B e hB g hg).2
      rfl UsedEx.file_ws UsedEx.file_clean x hx f hf with h | h | h
    · exact .inl h
    · exact .inr h
    · cases h.1
  | _ => rw [e] at h; cases h

namespace UsedEx

/-- Is an evaluated function used that is not declared. -/
def evB (o : Opt) : Prs.Out LProblem → Bool
  | .ok P => ((toProb o P).bind fun B => B.file).any fun g => g.assertions.any fun a => (axSyms a).any fun f =>
      (match f with | .ev (.sym _) => true | _ => false) && !(g.declarations.flatMap Gen.syms).contains f
  | _ => false

theorem ev_checked : ([plain none, { plain none with symbolic := true, noBitstring := true }].all fun a =>
    evB (a.opt 100) (a.load id 10 file)) = true := by decide +kernel

end UsedEx

/-- **C94.** Without switches, and with `--symbolic --no-bitstring`, the claim about used symbols is false of the code: for a file that is well sorted and
clean, with a query that is the result of a function for all messages, an evaluated function is used that is not declared. -/
theorem C94_switches_counterexample (a : Args) (ha : a ∈ [plain none, { plain none with symbolic := true, noBitstring := true }]) :
    ∃ (l : List Prs.Decl) (P : LProblem) (B : Gen.Prob BF) (g : GenFile BF), FileWs (env0 a.env.allowShadowing) l ∧
      FileClean (env0 a.env.allowShadowing) l ∧ a.load id 10 l = .ok P ∧ toProb (a.opt 100) P = some B ∧ B.file = some g ∧
      ∃ x ∈ g.assertions, ∃ n, BF.ev (.sym n) ∈ axSyms x ∧ BF.ev (.sym n) ∉ g.declarations.flatMap Gen.syms := by
  have h := List.all_eq_true.1 UsedEx.ev_checked a ha
  have hsh : a.env.allowShadowing = true := by
    simp only [List.mem_cons, List.not_mem_nil, or_false] at ha
    rcases ha with rfl | rfl <;> rfl
  rw [hsh]
  cases e : a.load id 10 UsedEx.file with
  | ok P =>
    rw [e] at h
    simp only [UsedEx.evB] at h
    cases hB : toProb (a.opt 100) P with
    | none => rw [hB] at h; cases h
    | some B =>
    rw [hB, Option.bind_some] at h
    cases hg : B.file with
    | none => rw [hg] at h; cases h
    | some g =>
    rw [hg, Option.any_some] at h
    simp only [List.any_eq_true, Bool.and_eq_true, Bool.not_eq_true', List.contains_eq_mem, decide_eq_false_iff_not] at h
    obtain ⟨x, hx, f, hf, h1, h2⟩ := h
    split at h1
    · next n => exact ⟨UsedEx.file, P, B, g, UsedEx.file_ws, UsedEx.file_clean, e, hB, hg, x, hx, n, hf, h2⟩
    · cases h1
  | _ => rw [e] at h; cases h

/-- **C92.** The text that is written for an accepted file with the options of a command line can be read back, and if it has no model the query of the file is
true, as in `C92_proved_partial`: all switches are allowed, except that `--legacy-evaluate` is not used with `--symbolic`. Missing: as there. -/
theorem C92_command_line_partial {D : Type} (a : Args) (hleg : a.legacyEvaluate = false ∨ a.symbolic = false)
    (ord : List (String × Cache) → List (String × Cache)) (hord : ∀ l, (ord l).Perm l) (n fuel : Nat) (l : List Prs.Decl) (P : LProblem) (B : Gen.Prob BF)
    (hw : FileWs (env0 a.env.allowShadowing) l) (hc : FileClean (env0 a.env.allowShadowing) l)
    (h : a.load ord fuel l = .ok P) (hB : toProb (a.opt n) P = some B) (ht : TblPlain P.tbl) (hf : UserForms P)
    (M : Str BF D) (I : Prs.Sem D) (points : List D) (undef first : D) (hx : FileExec (a.opt n) (env0 a.env.allowShadowing) l P M I points undef first)
    (ha : ∀ c ∈ P.crypto.zipIdx, Says (a.opt n) (env0 a.env.allowShadowing) l P B M I points c)
    (hv : ∀ t ∈ assertionsOf l, I.M.truth (den P.env.toEnv I .ev [] t)) (g : GenFile BF) (hg : B.file = some g)
    (letter : Char → Bool) (hl : LettersOk letter) (hn : NamesClear letter l) (gid : BF → Nat)
    (hid : ∀ f ∈ g.syms, ∀ f' ∈ g.syms, Generated f → Generated f' → gid (numbered f) = gid (numbered f') → numbered f = numbered f')
    (hax : ∀ x ∈ g.assertions, AxOK (symInfo P gid) a.env.smtOpts.evaluated x) (hstd : Std (symInfo P gid) M)
    (hno : Noop (symInfo P gid) a.env.smtOpts.evaluated M) (hdecl : ∀ d ∈ g.declarations, declSem (symInfo P gid) M d) :
    ∃ text es t, output (symInfo P gid) a.env.smtOpts g = some text ∧ SmtS.read text = some es ∧ queriesOf l = [t] ∧
      ((∀ (D : Type) (I : Interp D), ¬ ∀ e ∈ es, cmdSem I e) → I.M.truth (den P.env.toEnv I .ev [] t)) := by
  refine C92_proved_partial ord hord (a.opt n) _ _ fuel l P B hw hc h hB ht hf (opt_legacy hleg) M I points undef first hx ha hv g hg letter hl hn gid hid
    a.env.smtOpts (fun he => ?_) hax hstd hno hdecl
  rw [smtOpts_evaluated] at he
  rw [opt_symbolic]
  simpa using he

/-- The command line without switches gives the options of the file and the execution in `BuildTextEx2`, which meet all the hypotheses. -/
example : (plain none).opt 100 = Ex.opt ∧ (plain none).env.smtOpts = Ex.opts ∧ (plain none).legacyEvaluate = false ∧
    (plain none).load id 10 Ex.file = load id 10 false (env0 true) Ex.file := ⟨rfl, rfl, rfl, rfl⟩

end Bld
end CV
