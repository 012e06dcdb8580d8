import Verif.BuildTextProps
set_option linter.unusedSimpArgs false
set_option linter.unusedVariables false
set_option linter.unnecessarySeqFocus false
/-
C92: accepted files whose names clash in the text, or whose text is not a text of the language.
-/
namespace CV
namespace Bld
namespace Clash
open Prs SmtM SmtS

/-- The realm is the evaluated one. -/
def opt : Opt := ⟨false, true, false, false, true, true, 100⟩

def opts : Opts := ⟨false, true, false, true, true⟩

/-- The commands written for a loaded file (`SmtFile::from_general_file`). -/
def cmds (P : LProblem) : Option (List (Smt BF)) :=
  (toProb opt P).bind fun B => B.file.bind fun g => ofFile (symInfo P fun _ => 0) opts g

/-- The text of a command, read back. -/
def back (P : LProblem) (c : Smt BF) : Option (List SExp) := (dispSmt (symInfo P fun _ => 0) true c).bind SmtS.read

/-- The file is accepted as `P`, its text is the concatenation of the texts of the commands `cs` (with comments), and one of them is read by the solver as `e`. -/
structure Written (l : List Prs.Decl) (P : LProblem) (cs : List (Smt BF)) (e : SExp) : Prop where
  load : load id 10 false (env0 true) l = .ok P
  file : ∃ B g, toProb opt P = some B ∧ B.file = some g ∧ ofFile (symInfo P fun _ => 0) opts g = some cs
  cmd : ∃ c ∈ cs, ∃ text, dispSmt (symInfo P fun _ => 0) true c = some text ∧ SmtS.read text = some [e]

/-- A check on the problem, the commands and one of them. `sel` avoids reading all of them. -/
def check (p : LProblem → Bool) (all : LProblem → Smt BF → Bool) (sel : Smt BF → Bool) (q : SExp → Bool) (l : List Prs.Decl) : Bool :=
  match load id 10 false (env0 true) l with
  | .ok P => p P && (cmds P).any fun cs => cs.all (all P) && cs.any fun c => sel c && (match back P c with | some [e] => q e | _ => false)
  | _ => false

theorem check_written {p : LProblem → Bool} {all : LProblem → Smt BF → Bool} {sel : Smt BF → Bool} {q : SExp → Bool} {l : List Prs.Decl}
    (h : check p all sel q l = true) : ∃ P cs e, Written l P cs e ∧ p P = true ∧ q e = true ∧ ∀ c ∈ cs, all P c = true := by
  simp only [check] at h
  split at h
  · next P e =>
    simp only [Bool.and_eq_true, Option.any_eq_true] at h
    obtain ⟨hp, cs, hcs, ha, hq⟩ := h
    obtain ⟨c, hc, hq⟩ := List.any_eq_true.1 hq
    simp only [Bool.and_eq_true] at hq
    obtain ⟨-, hq⟩ := hq
    split at hq
    · next x hb =>
      simp only [cmds, Option.bind_eq_some_iff] at hcs
      obtain ⟨B, hB, g, hg, ho⟩ := hcs
      obtain ⟨t, ht, hr⟩ := Option.bind_eq_some_iff.1 hb
      exact ⟨P, cs, x, ⟨e, ⟨B, g, hB, hg, ho⟩, c, hc, t, ht, hr⟩, hp, hq, fun c hc => List.all_eq_true.1 ha c hc⟩
    · cases hq
  · cases h

/-- A structure in which every application of a symbol that is not a connective is true. -/
noncomputable def M : Str BF Prop where
  truth p := p
  ofProp p := p
  truth_ofProp _ := .rfl
  dom _ _ := True
  fn f as :=
    match symKind f, as with
    | .fls, _ => False
    | .and, as => ∀ a ∈ as, a
    | .or, as => ∃ a ∈ as, a
    | .eq, as => ∀ a ∈ as, ∀ b ∈ as, a = b
    | .not, [a] => ¬ a
    | .imp, [a, b] => a → b
    | .ite, [c, a, b] => open Classical in if c then a else b
    | .evaluate, [a] => a
    | _, _ => True

theorem M_std (P : LProblem) (gid : BF → Nat) : Std (symInfo P gid) M ∧ Noop (symInfo P gid) true M := by
  refine ⟨⟨?_, ?_, ?_, ?_, ?_, ?_, ?_, ?_⟩, ?_⟩
  case refine_9 =>
    intro _ f hf d
    have hf : symKind f = _ := hf
    simp only [M, hf]
  all_goals
    intro f hf
    have hf : symKind f = _ := hf
    first
    | (intro c a b; simp only [M, hf]; congr)
    | (intro a b; simp only [M, hf])
    | (intro a; simp only [M, hf])
    | simp only [M, hf]

/-- What a user expects of a file: its assertions and the negation of its query are true in some structure with the usual connectives. -/
def Refutable (P : LProblem) : Prop :=
  ∃ M : Str BF Prop, Std (symInfo P fun _ => 0) M ∧ Noop (symInfo P fun _ => 0) true M ∧
    (∀ φ ∈ P.assertions, ∀ ρ, Fm.holds M ρ (up φ)) ∧ ∀ ρ, ¬ Fm.holds M ρ (up P.query)

/-- A command without a model: a solver answers that the query is proved. -/
def NoModel (e : SExp) : Prop := ∀ (D : Type) (I : Interp D), ¬ cmdSem I e

def anyAssert : Smt BF → Bool
  | .assert (.and _) => true
  | _ => false

def anyQuery : Smt BF → Bool
  | .assertNot _ => true
  | _ => false

/-! ### Functions called `distinct` -/

def distinctFile : List Prs.Decl := [
  .func "distinct" ["Message", "Message"] "Bool",
  .assertion (.infx .and [.app "distinct" [.cvar "empty", .cvar "empty"], .app "true" []]),
  .query (.app "false" [])]

def distinctP (P : LProblem) : Bool :=
  match P.assertions, P.query with
  | [.app .and [.app .evalCond [.app (.sym n) _], .app .tru []]], .app .fls [] => n == "distinct"
  | _, _ => false

def distinctE : SExp → Bool
  | .list [.atom h, .list [.atom a, .list [.atom d, .atom x, .atom y], _]] =>
    h == "assert".toList && a == "and".toList && d == "distinct".toList && x == y
  | _ => false

theorem distinct_checked : check distinctP (fun _ _ => true) anyAssert distinctE distinctFile = true := by decide +kernel

/-- **C92 is false of functions called `distinct`**: the word is not among the reserved ones, so that the file is accepted, but the solver reads applications of
the function as disequalities. The text has no model, though the query is `false` and the assertion can be true. -/
theorem C92_distinct_counterexample : ∃ P cs e, Written distinctFile P cs e ∧ Refutable P ∧ NoModel e := by
  obtain ⟨P, cs, e, hw, hp, hq, -⟩ := check_written distinct_checked
  refine ⟨P, cs, e, hw, ?_, ?_⟩
  · refine ⟨M, (M_std P _).1, (M_std P _).2, ?_⟩
    simp only [distinctP] at hp
    split at hp
    · next n l h1 h2 =>
      rw [h1, h2]
      constructor
      · intro φ hφ ρ
        obtain rfl := List.mem_singleton.1 hφ
        simp [Fm.holds, up, Fm.mapF, Fm.mapFs, Fm.eval, Fm.evals, M, symKind]
      · intro ρ
        simp [Fm.holds, up, Fm.mapF, Fm.mapFs, Fm.eval, Fm.evals, M, symKind]
    · cases hp
  · intro D I this
    have hb := hq
    simp only [distinctE] at hb
    split at hb
    · next h a d x y z =>
      simp only [Bool.and_eq_true, beq_iff_eq] at hb
      obtain ⟨⟨⟨rfl, rfl⟩, rfl⟩, rfl⟩ := hb
      simp only [cmdSem, true_or, if_true, sem, appS, sems] at this
      simp only [show ("and".toList = "forall".toList) = False by simp, show ("and".toList = "exists".toList) = False by simp, if_false, if_true,
        I.truth_ofProp, List.map_cons, List.mem_cons, forall_eq_or_imp] at this
      have h1 := this.1
      simp [I.truth_ofProp] at h1
    · cases hb

/-! ### Constants called like variables -/

def variableFile : List Prs.Decl := [
  .func "MX0" [] "Message",
  .query (.quant .all [("x", "Message")] (.infx .eq [.cvar "x", .cvar "MX0"]))]

def variableP (P : LProblem) : Bool :=
  match P.assertions, P.query with
  | [], .quant .all [v] (.app .eq [.app .evalMsg [.var w], .app .evalMsg [.app (.sym n) []]]) => v.id == 0 && w.id == 0 && n == "MX0"
  | _, _ => false

def variableE : SExp → Bool
  | .list [.atom h, .list [.atom a, .list [.list [.atom _, .atom _]], .list [.atom d, .atom x, .atom y]]] =>
    h == "assert-not".toList && a == "forall".toList && d == "=".toList && x == y
  | _ => false

theorem variable_checked : check variableP (fun _ _ => true) anyQuery variableE variableFile = true := by decide +kernel

/-- **C92 is false of names of the form of variables**: the query that all messages are equal to a constant called `MX0` is accepted, and written as
`(forall ((MX0 Message)) (= MX0 MX0))`. The text has no model, though the query can be false. -/
theorem C92_variable_counterexample : ∃ P cs e, Written variableFile P cs e ∧ Refutable P ∧ NoModel e := by
  obtain ⟨P, cs, e, hw, hp, hq, -⟩ := check_written variable_checked
  refine ⟨P, cs, e, hw, ?_, ?_⟩
  · refine ⟨M, (M_std P _).1, (M_std P _).2, ?_⟩
    simp only [variableP] at hp
    split at hp
    · next v w n h1 h2 =>
      rw [h1, h2]
      refine ⟨by simp, fun ρ => ?_⟩
      simp only [Bool.and_eq_true, beq_iff_eq] at hp
      obtain ⟨⟨hv, hw⟩, -⟩ := hp
      intro h
      simp [Fm.holds, up, Fm.mapF, Fm.mapFs, Fm.eval, Fm.evals, M, symKind, quantVal, hv, hw, Valn.set] at h
      exact (h False False (.inl .rfl) True (.inr trivial)).2 trivial
    · cases hp
  · intro D I this
    have hb := hq
    simp only [variableE] at hb
    split at hb
    · next h a n s d x y =>
      simp only [Bool.and_eq_true, beq_iff_eq] at hb
      obtain ⟨⟨⟨rfl, rfl⟩, rfl⟩, rfl⟩ := hb
      simp only [cmdSem] at this
      apply this
      simp [sem, appS, sems, I.truth_ofProp, quantS, chainEq, binder]
    · cases hb

/-! ### Types called like those of the solver, and names that are not symbols -/

/-- The simple symbols of SMT-LIB 2.6 (section 3.1): not empty, not starting with a digit, of letters, digits and `~ ! @ $ % ^ & * _ - + = < > . ? /`. -/
def Simple (n : List Char) : Prop := n ≠ [] ∧ (∀ c, n.head? = some c → c.isDigit = false) ∧ ∀ c ∈ n, c.isAlphanum = true ∨ c ∈ "~!@$%^&*_-+=<>.?/".toList

def symbolFile : List Prs.Decl := [.type "Int", .func "k'" ["Int"] "Message", .query (.app "true" [])]

/-- The type `Int` is declared. -/
def sortE : SExp → Bool
  | .list [.atom h, .atom s, .atom _] => h == "declare-sort".toList && s == "Int".toList
  | _ => false

/-- The function is declared. -/
def symbolE : SExp → Bool
  | .list [.atom h, .atom s, .list [.atom a], .atom _] => h == "declare-fun".toList && s == "k'".toList && a == "Int".toList
  | _ => false

def anySort : Smt BF → Bool
  | .declSort _ => true
  | _ => false

def oneArg : Smt BF → Bool
  | .declFun (.f (.sym n)) => n == "k'"
  | _ => false

theorem sort_checked : check (fun _ => true) (fun _ _ => true) anySort sortE symbolFile = true := by decide +kernel

theorem symbol_checked : check (fun _ => true) (fun _ _ => true) oneArg symbolE symbolFile = true := by decide +kernel

/-- **C92 is false of some types**: the words that no function may be called, such as `Int`, are accepted for types. The text of an accepted file declares a sort `Int`,
which the language of the solver already has. -/
theorem C92_sort_counterexample : "Int" ∈ keywords ∧
    ∃ P cs a, Written symbolFile P cs (.list [.atom "declare-sort".toList, .atom "Int".toList, a]) := by
  obtain ⟨P, cs, e, hw, -, hb, -⟩ := check_written sort_checked
  refine ⟨by decide, P, cs, ?_⟩
  simp only [sortE] at hb
  split at hb
  · next h s a =>
    simp only [Bool.and_eq_true, beq_iff_eq] at hb
    obtain ⟨rfl, rfl⟩ := hb
    exact ⟨_, hw⟩
  · cases hb

/-- **C92 is false of some identifiers**: a name with a quote is accepted and written as it is, though it is not a symbol. -/
theorem C92_symbol_counterexample : (∃ P cs a b, Written symbolFile P cs (.list [.atom "declare-fun".toList, .atom "k'".toList, a, b])) ∧
    ¬ Simple "k'".toList := by
  obtain ⟨P, cs, e, hw, -, hb, -⟩ := check_written symbol_checked
  constructor
  · simp only [symbolE] at hb
    split at hb
    · next h s a b =>
      simp only [Bool.and_eq_true, beq_iff_eq] at hb
      obtain ⟨⟨rfl, rfl⟩, rfl⟩ := hb
      exact ⟨P, cs, _, _, hw⟩
    · cases hb
  · intro h
    have := h.2.2 '\'' (by decide)
    revert this
    decide

/-! ### Evaluated functions that are not declared -/

def evaluatedFile : List Prs.Decl := [.func "p" ["Message"] "Bool", .query (.app "p" [.cvar "empty"])]

/-- The symbols a command declares. -/
def declared : Smt BF → List BF
  | .declFun f => [f]
  | .declSub f _ => [f]
  | .declData _ cs => cs.flatten.flatMap fun c => c.1 :: c.2
  | _ => []

def evaluatedAll (P : LProblem) (c : Smt BF) : Bool :=
  (declared c).all fun f => (symInfo P fun _ => 0).name f != "eval$p".toList && (symInfo P fun _ => 0).name f != "eval$empty".toList

def evaluatedE : SExp → Bool
  | .list [.atom h, .list [.atom a, .atom b]] => h == "assert-not".toList && a == "eval$p".toList && b == "eval$empty".toList
  | _ => false

theorem evaluated_checked : check (fun _ => true) evaluatedAll anyQuery evaluatedE evaluatedFile = true := by decide +kernel

/-- **C92, undeclared symbols.** In the evaluated realm the query `p(empty)` is written with the evaluated functions `eval$p` and `eval$empty`, which no command
declares: they are declared only in the other realm. -/
theorem C92_undeclared_counterexample : ∃ P cs,
    Written evaluatedFile P cs (.list [.atom "assert-not".toList, .list [.atom "eval$p".toList, .atom "eval$empty".toList]]) ∧
    ∀ c ∈ cs, ∀ f ∈ declared c, (symInfo P fun _ => 0).name f ≠ "eval$p".toList ∧ (symInfo P fun _ => 0).name f ≠ "eval$empty".toList := by
  obtain ⟨P, cs, e, hw, -, hb, ha⟩ := check_written evaluated_checked
  refine ⟨P, cs, ?_, fun c hc f hf => ?_⟩
  · simp only [evaluatedE] at hb
    split at hb
    · next h a b =>
      simp only [Bool.and_eq_true, beq_iff_eq] at hb
      obtain ⟨⟨rfl, rfl⟩, rfl⟩ := hb
      exact hw
    · cases hb
  · have := List.all_eq_true.1 (ha c hc) f hf
    simpa using this

end Clash
end Bld
end CV
