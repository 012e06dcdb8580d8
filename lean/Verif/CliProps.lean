import Verif.Cli
import Verif.SmtFileProps
import Verif.LoadMain
set_option linter.unusedSimpArgs false
/-
C44: what the switches of the command line do.
-/
namespace CV
namespace Cli

theorem flags_auto : ∀ a b c d e : Bool,
    let f := flag a Flags.LEGACY_EVALUATE ||| flag b Flags.SKOLEMNISE ||| flag c Flags.NO_BITSTRING |||
      (flag d Flags.LEMMA ||| flag e Flags.IGNORE_LEMMAS)
    has f Flags.LEGACY_EVALUATE = a ∧ has f Flags.NO_BITSTRING = c ∧ has f Flags.LEMMA = d ∧ has f Flags.IGNORE_LEMMAS = e ∧
      has f Flags.ASSERT_THEORY = false ∧ has f Flags.ASSERT_NOT = false ∧ has f Flags.ASSERT_GROUND = false ∧
      has f Flags.DISALLOW_SHADOWING = false := by decide +kernel

theorem flags_file : ∀ a b c d e g h i : Bool,
    let f := flag a Flags.LEGACY_EVALUATE ||| flag b Flags.SKOLEMNISE ||| flag c Flags.NO_BITSTRING |||
      (flag d Flags.LEMMA ||| flag e Flags.ASSERT_THEORY ||| flag g Flags.ASSERT_GROUND ||| flag h Flags.DISALLOW_SHADOWING)
    let f' := if i then diff f (Flags.ASSERT_GROUND ||| Flags.ASSERT_NOT ||| Flags.ASSERT_THEORY) else f
    has f' Flags.LEGACY_EVALUATE = a ∧ has f' Flags.NO_BITSTRING = c ∧ has f' Flags.LEMMA = d ∧ has f' Flags.IGNORE_LEMMAS = false ∧
      has f' Flags.ASSERT_THEORY = (e && !i) ∧ has f' Flags.ASSERT_NOT = false ∧ has f' Flags.ASSERT_GROUND = (g && !i) ∧
      has f' Flags.DISALLOW_SHADOWING = h := by decide +kernel

theorem flags_subterm : ∀ a b i : Bool,
    let f := ST.PREPROCESS_INPUTS ||| ST.PREPROCESS_CELLS ||| flag a ST.PREPROCESS_INSTANCES ||| flag b ST.VAMPIRE
    let f' := if i then diff f ST.VAMPIRE else f
    has f' ST.DEFINED = true ∧ has f' ST.PREPROCESS_INSTANCES = a ∧ has f' ST.VAMPIRE = (b && !i) := by decide +kernel

theorem flags_rewrite : ∀ a b : Bool, ((flag a RW.EVALUATE ||| flag b RW.CRYPTOGRAPHY) == 0) = (!a && !b) := by decide +kernel

/-- The switches of `to-file` and `auto`, with the command used when none is given. -/
def Args.cmd (g : Args) : Command := g.command.getD (.auto .dflt)

theorem cmd_none {g : Args} (h : g.command = none) : g.cmd = .auto .dflt := by simp [Args.cmd, h]

/-- The observations of the environment built for `auto`. -/
theorem obs_auto {g : Args} {a : Auto} (h : g.cmd = .auto a) :
    g.env.obs = {
      defineSubterm := true, preprocessInstances := !g.noPreprocessing, useVampireSubterm := g.vampireSubterm && g.symbolic,
      noRewrite := !g.evalRewrite && !g.cryptoRewrite, useAssertTheory := false, useAssertNot := false, useAssertGround := false,
      useLegacyEvaluate := g.legacyEvaluate && g.symbolic, noBitstringFunctions := g.noBitstring && g.symbolic,
      withGeneralCryptoAxiom := g.symbolic, areLemmasIgnored := a.ignoreLemmas, useLemmas := some (a.lemmas && !a.ignoreLemmas),
      allowShadowing := true, symbolic := g.symbolic, solver := a.toConfig } := by
  have hc : g.command.getD (.auto .dflt) = .auto a := h
  have h1 := flags_auto g.legacyEvaluate g.skolemnise (g.noBitstring && g.symbolic) (a.lemmas && !a.ignoreLemmas) a.ignoreLemmas
  have h2 := flags_subterm (!g.noPreprocessing) g.vampireSubterm false
  have h3 := flags_rewrite g.evalRewrite g.cryptoRewrite
  simp only [Bool.false_eq_true, if_false] at h1 h2
  obtain ⟨k1, k2, k3, k4, k5, k6, k7, k8⟩ := h1
  obtain ⟨l1, l2, l3⟩ := h2
  simp only [Env.obs, Args.env, hc, Env.defineSubterm, Env.preprocessInstances, Env.useVampireSubterm, Env.noRewrite,
    Env.useAssertTheory, Env.useAssertNot, Env.useAssertGround, Env.useLegacyEvaluate, Env.noBitstringFunctions,
    Env.withGeneralCryptoAxiom, Env.areLemmasIgnored, Env.useLemmas, Env.allowShadowing, k1, k2, k3, k4, k5, k6, k7, k8, l1, l2, l3, h3]
  cases a.lemmas <;> cases a.ignoreLemmas <;> simp

/-- The observations of the environment built for `to-file`. -/
theorem obs_file {g : Args} {t : ToFile} (h : g.cmd = .toFile t) :
    g.env.obs = {
      defineSubterm := true, preprocessInstances := !g.noPreprocessing,
      useVampireSubterm := g.vampireSubterm && !t.cvc5 && g.symbolic,
      noRewrite := !g.evalRewrite && !g.cryptoRewrite, useAssertTheory := t.assertTheory && !t.cvc5, useAssertNot := false,
      useAssertGround := t.assertGround && !t.cvc5,
      useLegacyEvaluate := g.legacyEvaluate && g.symbolic, noBitstringFunctions := g.noBitstring && g.symbolic,
      withGeneralCryptoAxiom := g.symbolic, areLemmasIgnored := false, useLemmas := some t.lemmas,
      allowShadowing := !g.disallowShadowing, symbolic := g.symbolic,
      solver := ⟨"vampire", "z3", "cvc5", false, false, false, 5, "1.0", none⟩ } := by
  have hc : g.command.getD (.auto .dflt) = .toFile t := h
  have h1 := flags_file g.legacyEvaluate g.skolemnise (g.noBitstring && g.symbolic) t.lemmas t.assertTheory t.assertGround
    g.disallowShadowing t.cvc5
  have h2 := flags_subterm (!g.noPreprocessing) g.vampireSubterm t.cvc5
  have h3 := flags_rewrite g.evalRewrite g.cryptoRewrite
  simp only at h1 h2
  obtain ⟨k1, k2, k3, k4, k5, k6, k7, k8⟩ := h1
  obtain ⟨l1, l2, l3⟩ := h2
  simp only [Env.obs, Args.env, hc, Env.defineSubterm, Env.preprocessInstances, Env.useVampireSubterm, Env.noRewrite,
    Env.useAssertTheory, Env.useAssertNot, Env.useAssertGround, Env.useLegacyEvaluate, Env.noBitstringFunctions,
    Env.withGeneralCryptoAxiom, Env.areLemmasIgnored, Env.useLemmas, Env.allowShadowing, k1, k2, k3, k4, k5, k6, k7, k8, l1, l2, l3, h3]
  cases t.lemmas <;> simp [Auto.toConfig, Auto.dflt]

theorem cmd_cases (g : Args) : (∃ a, g.cmd = .auto a) ∨ ∃ t, g.cmd = .toFile t := by
  cases h : g.cmd with
  | auto a => exact .inl ⟨a, rfl⟩
  | toFile t => exact .inr ⟨t, rfl⟩

/-- C44: the documented effect of the global switches, for every combination with every other switch and every command. The
exception is `--vampire-subterm`, which `--cvc5` removes. -/
theorem C44_global_partial (g : Args) :
    (g.env.symbolic = g.symbolic) ∧
    (g.env.preprocessInstances = true ↔ g.noPreprocessing = false) ∧
    (g.env.useLegacyEvaluate = true ↔ g.legacyEvaluate = true ∧ g.symbolic = true) ∧
    (g.env.noBitstringFunctions = true ↔ g.noBitstring = true ∧ g.symbolic = true) ∧
    (g.env.noRewrite = true ↔ g.evalRewrite = false ∧ g.cryptoRewrite = false) ∧
    (g.env.useVampireSubterm = true ↔ g.vampireSubterm = true ∧ g.symbolic = true ∧ ∀ t, g.command = some (.toFile t) → t.cvc5 = false) ∧
    g.env.defineSubterm = true ∧ g.env.useAssertNot = false := by
  rcases cmd_cases g with ⟨a, h⟩ | ⟨t, h⟩
  · have ho := obs_auto h
    simp only [Env.obs, Obs.mk.injEq] at ho
    obtain ⟨h1, h2, h3, h4, h5, h6, h7, h8, h9, h10, h11, h12, h13, h14, h15⟩ := ho
    have hn : ∀ t, g.command ≠ some (.toFile t) := by
      intro t ht; simp [Args.cmd, ht] at h
    rw [h14, h2, h8, h9, h4, h3, h1, h6]
    refine ⟨rfl, by simp, by simp, by simp, by simp, ?_, rfl, rfl⟩
    simp only [Bool.and_eq_true]
    exact ⟨fun k => ⟨k.1, k.2, fun t ht => absurd ht (hn t)⟩, fun k => ⟨k.1, k.2.1⟩⟩
  · have ho := obs_file h
    simp only [Env.obs, Obs.mk.injEq] at ho
    obtain ⟨h1, h2, h3, h4, h5, h6, h7, h8, h9, h10, h11, h12, h13, h14, h15⟩ := ho
    have hn : g.command = some (.toFile t) := by
      cases hc : g.command with
      | none => simp [Args.cmd, hc] at h
      | some c => simpa [Args.cmd, hc] using h
    rw [h14, h2, h8, h9, h4, h3, h1, h6]
    refine ⟨rfl, by simp, by simp, by simp, by simp, ?_, rfl, rfl⟩
    simp only [Bool.and_eq_true, Bool.not_eq_true', hn, Option.some.injEq, Command.toFile.injEq, forall_eq']
    exact ⟨fun k => ⟨k.1.1, k.2, k.1.2⟩, fun k => ⟨⟨k.1, k.2.2⟩, k.2.1⟩⟩

/-- No switch. -/
def plain (c : Option Command) : Args := ⟨false, false, false, false, false, false, false, false, false, c⟩

example : (plain none).env.preprocessInstances = true ∧
    ({ plain none with noPreprocessing := true }).env.preprocessInstances = false ∧
    ({ plain none with vampireSubterm := true, symbolic := true }).env.useVampireSubterm = true ∧
    ({ plain (some (.toFile ⟨"o", false, false, true, false⟩)) with vampireSubterm := true, symbolic := true }).env.useVampireSubterm
      = false := by decide +kernel

/-- C44: what runs. With `to-file` the files go to the given place, one per obligation iff `--lemmas`; otherwise the solvers run, with
the given configuration, and lemmas are obligations iff `--lemmas` without `--ignore-lemmas`. The internal assertion against
contradictory options never fails. -/
theorem C44_plan (g : Args) :
    (∀ t, g.command = some (.toFile t) → g.plan = some (if t.lemmas then .dir t.outputLocation else .file t.outputLocation, t.lemmas)) ∧
    (∀ a, g.command = some (.auto a) → g.plan = some (.solvers a.toConfig, a.lemmas && !a.ignoreLemmas)) ∧
    (g.command = none → g.plan = some (.solvers Auto.dflt.toConfig, true)) := by
  refine ⟨fun t h => ?_, fun a h => ?_, fun h => ?_⟩
  · have ho := obs_file (g := g) (t := t) (by simp [Args.cmd, h])
    have h12 : g.env.useLemmas = some t.lemmas := congrArg Obs.useLemmas ho
    simp [Args.plan, h12, Args.outputLocation, h]
  · have ho := obs_auto (g := g) (a := a) (by simp [Args.cmd, h])
    have h12 : g.env.useLemmas = some (a.lemmas && !a.ignoreLemmas) := congrArg Obs.useLemmas ho
    have h15 : g.env.solver = a.toConfig := congrArg Obs.solver ho
    simp [Args.plan, h12, Args.outputLocation, h, h15]
  · have ho := obs_auto (g := g) (a := .dflt) (by simp [Args.cmd, h])
    have h12 : g.env.useLemmas = some true := congrArg Obs.useLemmas ho
    have h15 : g.env.solver = Auto.dflt.toConfig := congrArg Obs.solver ho
    simp [Args.plan, h12, Args.outputLocation, h, h15]

/-- C44, finding: the command said to be the default is not: without a command the lemmas are obligations, with `auto` they are not. -/
theorem C44_default_differs : (plain none).plan = some (.solvers Auto.dflt.toConfig, true) ∧
    (plain (some (.auto .clapDefault))).plan = some (.solvers Auto.clapDefault.toConfig, false) :=
  ⟨(C44_plan _).2.2 rfl, (C44_plan _).2.1 _ rfl⟩

/-- C44: a disabled solver is never used, whatever is installed, and disabling all of them is an error. -/
theorem C44_disabled (g : Args) (a : Auto) (h : g.command = some (.auto a)) (fv fz v z : Bool)
    (hs : selectSolvers g.env.solver.enVampire g.env.solver.enZ3 fv fz = .ok (v, z)) :
    (a.disableVampire = true → v = false) ∧ (a.disableZ3 = true → z = false) ∧ (v = true ∨ z = true) ∧
      ¬ (a.disableVampire = true ∧ a.disableZ3 = true) := by
  have h15 : g.env.solver = a.toConfig := congrArg Obs.solver (obs_auto (g := g) (a := a) (by simp [Args.cmd, h]))
  rw [h15] at hs
  have key : ∀ dv dz : Bool, selectSolvers (!dv) (!dz) fv fz = .ok (v, z) →
      (dv = true → v = false) ∧ (dz = true → z = false) ∧ (v = true ∨ z = true) ∧ ¬ (dv = true ∧ dz = true) := by
    intro dv dz hs
    cases dv <;> cases dz <;> cases fv <;> cases fz <;> simp [selectSolvers] at hs ⊢ <;> simp [← hs.1, ← hs.2]
  exact key _ _ hs

example : selectSolvers (plain (some (.auto { Auto.clapDefault with disableVampire := true }))).env.solver.enVampire
    (plain (some (.auto { Auto.clapDefault with disableVampire := true }))).env.solver.enZ3 true true = .ok (false, true) := by
  rfl

/-- C44: `--disallow-shadowing` reaches the reading of the file iff the command is `to-file`; `--ignore-lemmas` always does. -/
theorem C44_load_partial (g : Args) (ord : List (String × Prs.Cache) → List (String × Prs.Cache)) (fuel : Nat) (l : List Prs.Decl) :
    (∀ t, g.command = some (.toFile t) → g.load ord fuel l = Prs.load ord fuel false (Prs.env0 (!g.disallowShadowing)) l) ∧
    (∀ a, g.command = some (.auto a) → g.load ord fuel l = Prs.load ord fuel a.ignoreLemmas (Prs.env0 true) l) ∧
    (g.command = none → g.load ord fuel l = Prs.load ord fuel false (Prs.env0 true) l) := by
  refine ⟨fun t h => ?_, fun a h => ?_, fun h => ?_⟩
  · have ho := obs_file (g := g) (t := t) (by simp [Args.cmd, h])
    have h1 : g.env.areLemmasIgnored = false := congrArg Obs.areLemmasIgnored ho
    have h2 : g.env.allowShadowing = !g.disallowShadowing := congrArg Obs.allowShadowing ho
    rw [Args.load, h1, h2]
  · have ho := obs_auto (g := g) (a := a) (by simp [Args.cmd, h])
    have h1 : g.env.areLemmasIgnored = a.ignoreLemmas := congrArg Obs.areLemmasIgnored ho
    have h2 : g.env.allowShadowing = true := congrArg Obs.allowShadowing ho
    rw [Args.load, h1, h2]
  · have ho := obs_auto (g := g) (a := .dflt) (by simp [Args.cmd, h])
    have h1 : g.env.areLemmasIgnored = false := congrArg Obs.areLemmasIgnored ho
    have h2 : g.env.allowShadowing = true := congrArg Obs.allowShadowing ho
    rw [Args.load, h1, h2]

example : ∃ P, (plain none).load id 6 Prs.exFile = .ok P := by
  rw [(C44_load_partial (plain none) id 6 Prs.exFile).2.2 rfl]; exact Prs.exFile_loads

/-- C44, finding: some switches have no effect of their own. `--skolemnise` changes nothing; `--eval-rewrite` and `--crypto-rewrite` do
exactly the same; `--disallow-shadowing` changes nothing when the solvers are run. -/
theorem C44_no_effect (g : Args) (b c : Bool) :
    ({ g with skolemnise := b }).env.obs = g.env.obs ∧
    ({ g with evalRewrite := b, cryptoRewrite := c }).env.obs = ({ g with evalRewrite := c, cryptoRewrite := b }).env.obs ∧
    ((∀ t, g.command ≠ some (.toFile t)) → ({ g with disallowShadowing := b }).env.obs = g.env.obs) := by
  rcases cmd_cases g with ⟨a, h⟩ | ⟨t, h⟩
  · refine ⟨?_, ?_, fun _ => ?_⟩
    · rw [obs_auto h, obs_auto (g := { g with skolemnise := b }) h]
    · rw [obs_auto (g := { g with evalRewrite := b, cryptoRewrite := c }) h,
        obs_auto (g := { g with evalRewrite := c, cryptoRewrite := b }) h]
      simp [Bool.and_comm]
    · rw [obs_auto h, obs_auto (g := { g with disallowShadowing := b }) h]
  · refine ⟨?_, ?_, fun hn => ?_⟩
    · rw [obs_file h, obs_file (g := { g with skolemnise := b }) h]
    · rw [obs_file (g := { g with evalRewrite := b, cryptoRewrite := c }) h,
        obs_file (g := { g with evalRewrite := c, cryptoRewrite := b }) h]
      simp [Bool.and_comm]
    · exfalso
      cases hc : g.command with
      | none => simp [Args.cmd, hc] at h
      | some c => exact hn t (by rw [hc]; simpa [Args.cmd, hc] using h)

/-- C44: with `to-file --cvc5`, every file written uses standard commands only iff it declares no Vampire subterm relation (and none can be, the
switch being removed) and no rewrite switch was given or the problem has no rewrite rule. -/
theorem C44_cvc5_partial {F : Type} {K : SmtM.SymInfo F} (g : Args) (t : ToFile) (hc : g.command = some (.toFile t)) (h5 : t.cvc5 = true)
    {f : SmtM.GenFile F} {cs : List (SmtM.Smt F)} (h : SmtM.ofFile K g.env.smtOpts f = some cs) :
    g.env.useVampireSubterm = false ∧
    ((∀ c ∈ cs, c.standard) ↔ (∀ s gs, .subterm s gs ∉ f.declarations) ∧
      (g.evalRewrite = false ∧ g.cryptoRewrite = false ∨ ∀ k vs l r, .rewrite k vs l r ∉ f.assertions)) := by
  have ho := obs_file (g := g) (t := t) (by simp [Args.cmd, hc])
  have e1 : g.env.useVampireSubterm = false := by
    have : g.env.useVampireSubterm = (g.vampireSubterm && !t.cvc5 && g.symbolic) := congrArg Obs.useVampireSubterm ho
    simp [this, h5]
  have e2 : g.env.useAssertTheory = (t.assertTheory && !t.cvc5) := congrArg Obs.useAssertTheory ho
  have e3 : g.env.useAssertNot = false := congrArg Obs.useAssertNot ho
  have e4 : g.env.useAssertGround = (t.assertGround && !t.cvc5) := congrArg Obs.useAssertGround ho
  have e5 : g.env.noRewrite = (!g.evalRewrite && !g.cryptoRewrite) := congrArg Obs.noRewrite ho
  refine ⟨e1, ?_⟩
  have hz : g.env.smtOpts = g.env.smtOpts.z3 := by simp [Env.smtOpts, SmtM.Opts.z3, e2, e3, e4, h5]
  rw [hz] at h
  have := SmtM.C14_z3_standard _ h
  rw [this]
  simp [Env.smtOpts, e5]

/-- Both sides occur. -/
example : ∃ cs, SmtM.ofFile SmtM.Demo.K (plain (some (.toFile ⟨"o", false, true, true, true⟩))).env.smtOpts
    ⟨SmtM.Demo.file.assertions, [.free .p]⟩ = some cs ∧ ∀ c ∈ cs, c.standard := ⟨_, rfl, by decide⟩
example : ∃ cs, SmtM.ofFile SmtM.Demo.K ({ plain (some (.toFile ⟨"o", false, true, true, true⟩)) with cryptoRewrite := true }).env.smtOpts
    ⟨SmtM.Demo.file.assertions, [.free .p]⟩ = some cs ∧ ¬ ∀ c ∈ cs, c.standard := ⟨_, rfl, by decide⟩

/-- C44, finding: `--pretty-json` output is the `--json` output, and with the quiet format a failed run cannot be told from a
successful one in release builds. -/
theorem C44_output {R E : Type} (display : R → String) (showErr : E → String) (json : Except String R → String) :
    (∀ debug res, report debug display showErr json .prettyJson res = report debug display showErr json .json res) ∧
    (∀ r e, report false display showErr json .quiet (.ok r) = report false display showErr json .quiet (.error e)) ∧
    (∀ debug e, (report debug display showErr json .stdout (.error e)).panicked = true) ∧
    (∀ debug r, (report debug display showErr json .stdout (.ok r)).err = display r) := by
  refine ⟨fun d r => ?_, fun _ _ => rfl, fun d e => ?_, fun d r => ?_⟩
  · cases d <;> cases r <;> rfl
  · cases d <;> rfl
  · cases d <;> rfl

example : report false (fun n : Nat => toString n) (fun e : String => e) (fun _ => "{}") .stdout (.ok 3) = ⟨"", "3", false⟩ := by decide +kernel

end Cli
end CV
