import Verif.GenerateEx2
set_option linter.unusedSimpArgs false
set_option linter.unusedVariables false
set_option linter.unusedSectionVars false
/-
C71, the other direction: what the assertions of the problem file say. In every structure in which they are true, and whose
time points are finitely many, they force the time points to be an execution of the protocol, the declared orders, the
user's assertions, the contents of steps and cells and the meaning of `exec`. So the file says no less than intended.
-/
namespace CV
variable {D : Type}

section
variable {M : Str Sym D} {points : List D} {undef first : D}
open Fm SFm

/-- **C09, converse of exhaustiveness.** The emitted axiom makes every happening time point an instance of a step. -/
theorem C09_exhaustive_converse {p : Protocol} (hL : Logic M) (h : IsTrace M points undef first)
    (hwf : ∀ s ∈ p.steps, s.WF) (ρ : Valn D) (hax : holds M ρ (stepExhaustive p.steps)) :
    ∀ d ∈ points, ∃ s ∈ p.steps, ∃ as, InDoms M s.vars as ∧ M.fn (.step s.fid) as = d := by
  intro d hd
  simp only [stepExhaustive, holds_forall, quantVal, hL.holds_imp] at hax
  have hax := hax d ((h.dom_step d).2 (.inl hd))
  generalize hm : maxVar ((p.steps.flatMap Step.vars).map Var.id) = m at *
  have hval : eval M (ρ.set (sv m).id d) (st m) = d := by simp [eval, st, Valn.set]
  rw [holds_happens h, hval, hL.holds_ors] at hax
  obtain ⟨φ, hφ, ht⟩ := hax hd
  obtain ⟨s, hs, rfl⟩ := List.mem_map.1 hφ
  rw [holds_exists, quantVal_ex] at ht
  obtain ⟨as, has, ht⟩ := ht
  refine ⟨s, hs, as, has, ?_⟩
  rw [hL.holds_meq, Step.formula, eval_app_vars, Valn.sets_map _ _ _ (hwf s hs) has.length] at ht
  rw [← ht]
  simp only [eval, st, sv]
  rw [Valn.sets_notin]
  · simp [Valn.set]
  · intro hmem
    have : m ∈ (p.steps.flatMap Step.vars).map Var.id := by
      rw [List.mem_map] at hmem ⊢
      obtain ⟨v, hv, he⟩ := hmem
      exact ⟨v, List.mem_flatMap.2 ⟨s, hs, hv⟩, he⟩
    have := le_maxVar this
    omega

end

namespace Gen
open Dep SmtM SmtS Ev Cry Fm
section
variable {F : Type} [DecidableEq F] {P : Prob F} {M : Str F D} {points : List D} {undef first : D} {g : GenFile F}

/-- What is in the file. -/
theorem file_parts (h : P.file = some g) : ∃ o e c a q, P.order = some o ∧ P.K.E.generate = some e ∧ flatO P.ass P.crypto = some c ∧
    mapO (P.K.E.propagate P.fuel) P.assertions = some a ∧ P.K.E.propagate P.fuel P.query = some q ∧
    (∀ x, x ∈ o ∨ x ∈ e ∨ x ∈ c ∨ (∃ φ ∈ a, x = .base φ) ∨ x = .query q → x ∈ g.assertions) := by
  unfold Prob.file at h
  split at h
  swap
  · cases h
  rename_i axs ds haxs hds
  cases h
  unfold Prob.axioms at haxs
  split at haxs
  swap
  · cases haxs
  rename_i o e c a q ho he hc has hq
  cases haxs
  refine ⟨o, e, c, a, q, ho, he, hc, has, hq, ?_⟩
  intro x hx
  simp only [List.mem_append, List.mem_singleton, List.mem_map, List.mem_cons, List.not_mem_nil, or_false]
  rcases hx with h | h | h | ⟨φ, h, rfl⟩ | rfl
  · simp [h]
  · simp [h]
  · simp [h]
  · simp [h]
  · simp

theorem flatO_all {α β : Type} {f : α → Option (List β)} : ∀ {l : List α} {r : List β}, flatO f l = some r →
    ∀ a ∈ l, ∃ s, f a = some s ∧ ∀ b ∈ s, b ∈ r := by
  intro l r h a ha
  unfold flatO at h
  obtain ⟨rs, hrs, rfl⟩ := Option.map_eq_some_iff.1 h
  obtain ⟨s, hs, h1⟩ := Ev.mapO_mem' hrs a ha
  exact ⟨s, h1, fun b hb => List.mem_flatten.2 ⟨s, hs, hb⟩⟩

/-- The structure makes the assertions of the file true, except the negated query. -/
def Satisfies (M : Str F D) (ρ : Valn D) (g : GenFile F) : Prop :=
  ∀ a ∈ g.assertions, (∀ q, a ≠ .query q) → AxTrue M ρ a

/-- **C71: the file says enough about time.** In every structure in which the assertions are true, finite or not, time is linear,
`init` is first and `pred` is the immediate predecessor. -/
theorem C71_time (h : P.file = some g) (hL : Logic (M.comap P.ι)) {i : Step} (hi : P.P.init = some i) (hv : i.vars = [])
    (hpred : ∀ d, M.dom .step d → M.dom .step (M.fn (P.ι .pred) [d])) (ρ : Valn D) (hs : Satisfies M ρ g) :
    LinearTime (M.dom .step) (fun d => M.truth (M.fn (P.ι .happens) [d])) (fun a b => M.truth (M.fn (P.ι .leq) [a, b]))
      (fun a b => M.truth (M.fn (P.ι .lt) [a, b])) (fun d => M.fn (P.ι .pred) [d]) (M.fn (P.ι (.step i.fid)) []) := by
  obtain ⟨o, e, c, a, q, ho, -, -, -, -, hin⟩ := file_parts h
  unfold Prob.order at ho
  rw [hi] at ho
  cases ho
  refine C08_adequate (M := M.comap P.ι) hL i.formula _ (fun ρ => ?_) hpred ρ (fun ax hax => ?_)
  · rw [Step.formula, hv]; rfl
  · have := hs (.theory (ax.mapF P.ι)) (hin _ (.inl (by
      simp only [List.cons_append, List.mem_cons, List.mem_append, List.mem_map]
      exact .inr (.inl ⟨ax, .inl hax, rfl⟩)))) nofun
    exact (holds_mapF M P.ι ax ρ).1 this

/-- SPECIFICATION. What a user expects of a structure that satisfies the file: its time points are an execution of the
protocol, the declared orders and the user's assertions hold, and the macros, `exec` and the cells mean what the protocol says. -/
structure Meant (P : Prob F) (M : Str F D) (ρ : Valn D) (points : List D) (undef first : D) : Prop where
  run : IsRun (M.comap P.ι) P.P points undef first
  orders : ∀ vs guard op t1 t2, parseOrder .all vs guard op t1 t2 ∈ P.P.ordering →
    ∀ ds, InDoms (M.comap P.ι) vs ds → OrderMeaning (M.comap P.ι) points guard op t1 t2 (ρ.sets vs ds)
  user : ∀ φ ∈ P.assertions, M.truth (Fm.eval M ρ φ)
  macros : ∀ r d, .unfolding r d ∈ P.crypto → ∀ s ∈ P.P.steps, ∀ as, InDoms (M.comap P.ι) s.vars as →
    M.fn (P.ι (.step s.fid)) as ∈ points →
      M.fn (P.ι .evalCond) [M.fn (P.ι .cond) [M.fn (P.ι (.step s.fid)) as]] =
        M.fn (P.ι .evalCond) [Fm.eval (M.comap P.ι) (ρ.sets s.vars as) s.condition] ∧
      M.fn (P.ι .evalMsg) [M.fn (P.ι .msg) [M.fn (P.ι (.step s.fid)) as]] =
        M.fn (P.ι .evalMsg) [Fm.eval (M.comap P.ι) (ρ.sets s.vars as) s.message]
  exec : .unfolding true false ∈ P.crypto → EvalIsProp (M.comap P.ι) → ∀ (i : Nat) (d : D), points[i]? = some d →
    (ExecTrue (M.comap P.ι) d ↔ ∀ (j : Nat) (e : D), 1 ≤ j → j ≤ i → points[j]? = some e → CondTrue (M.comap P.ι) e)
  cells : .cell ∈ P.crypto → ∀ c ∈ P.P.cells, CellWF P.P.maxVar c → ∀ ks, CellIdx (M.comap P.ι) c ks →
    ∀ (i : Nat) (d v : D), points[i]? = some d →
      Replay (Writes (M.comap P.ι) c ρ) points (M.fn (P.ι (.cell c.fid)) (ks ++ [undef])) ks i v →
      M.fn (P.ι .evalMsg) [M.fn (P.ι (.cell c.fid)) (ks ++ [d])] = M.fn (P.ι .evalMsg) [v]

/-- **C71: the file says enough.** Every structure with finitely many time points in which the assertions are true is an
execution of the protocol in which everything written in the problem holds. Missing: the cryptographic assumptions (the file
has instances of their axioms only); the meaning of `exec` from the direct definition, which is another one
(`C11_direct_counterexample`). -/
theorem C71_enough_partial (h : P.file = some g) (hL : Logic (M.comap P.ι)) (ht : IsTrace (M.comap P.ι) points undef first)
    {i : Step} (hi : P.P.init = some i) (hv : i.vars = []) (hf : M.fn (P.ι (.step i.fid)) [] = first)
    (hwf : ∀ s ∈ P.P.steps, s.WF) (hlen : ∀ s ∈ P.P.steps, ∀ s' ∈ P.P.steps, s.fid = s'.fid → s.vars.length = s'.vars.length)
    (hty : ∀ s ∈ P.P.steps, ∀ as, InDoms (M.comap P.ι) s.vars as → M.dom .step (M.fn (P.ι (.step s.fid)) as))
    {sig : Sig F} {Γ : Nat → Srt} (htyp : Typing P.K.E M sig) (hho : Homo P.K.E M)
    (hpush : ∀ φ ∈ P.assertions, PushableF P.K.E sig Γ φ ∧ φ.size ≤ P.fuel) {ρ : Valn D} (hρ : Resp M Γ ρ) (hs : Satisfies M ρ g) :
    Meant P M ρ points undef first := by
  obtain ⟨o, e, c, a, q, ho, -, hc, ha, -, hin⟩ := file_parts h
  unfold Prob.order at ho
  rw [hi] at ho
  cases ho
  have hbase : ∀ φ, φ ∈ P.P.steps.map (stepDistinct P.P.steps) ++ [stepExhaustive P.P.steps] ++ P.P.ordering.map orderingAxiom →
      holds (M.comap P.ι) ρ φ := by
    intro φ hφ
    have := hs (.base (φ.mapF P.ι)) (hin _ (.inl (by
      simp only [List.cons_append, List.mem_cons, List.mem_append, List.mem_map]
      exact .inr (.inr ⟨φ, by simpa [or_assoc] using hφ, rfl⟩)))) nofun
    exact (holds_mapF M P.ι φ ρ).1 this
  have hass : ∀ x ∈ P.crypto, ∃ l, P.ass x = some l ∧ ∀ y ∈ l, (∀ q, y ≠ .query q) → AxTrue M ρ y := by
    intro x hx
    obtain ⟨l, hl, hm⟩ := flatO_all hc x hx
    exact ⟨l, hl, fun y hy hq => hs y (hin _ (.inr (.inr (.inl (hm y hy))))) hq⟩
  have hrun : IsRun (M.comap P.ι) P.P points undef first :=
    { ht with
      init := fun j hj => by rw [hi] at hj; cases hj; exact ⟨hv, hf⟩
      inst := fun s hsm as has => (ht.dom_step _).1 (hty s hsm as has)
      inj := fun s hsm s' hsm' as bs has hbs hap heq =>
        C09_distinct_converse hL ht hwf ρ (fun s hs => hbase _ (by simp; exact .inl ⟨s, hs, rfl⟩)) s s' hsm hsm' as bs has hbs
          (hlen s hsm s' hsm') hap heq
      surj := C09_exhaustive_converse hL ht hwf ρ (hbase _ (by simp)) }
  have hunf : ∀ r d, .unfolding r d ∈ P.crypto → ∃ l, unfoldingGenerate r d P.P = some l ∧ ∀ φ ∈ l, holds (M.comap P.ι) ρ φ := by
    intro r d hm
    obtain ⟨l, hl, hall⟩ := hass _ hm
    obtain ⟨l', hl', rfl⟩ := Option.map_eq_some_iff.1 hl
    refine ⟨l', hl', fun φ hφ => ?_⟩
    exact (holds_mapF M P.ι φ ρ).1 (hall (.base (φ.mapF P.ι)) (List.mem_cons_of_mem _ (List.mem_map.2 ⟨φ, hφ, rfl⟩)) nofun)
  refine ⟨hrun, ?_, ?_, ?_, ?_, ?_⟩
  · intro vs guard op t1 t2 hm
    exact (C10_ordering hL ht vs guard op t1 t2 ρ).1.1 (hbase _ (by
      simp only [List.mem_append, List.mem_map]
      exact .inr ⟨_, hm, rfl⟩))
  · intro φ hφ
    obtain ⟨h1, h2⟩ := hpush φ hφ
    obtain ⟨φ', e1, e2⟩ := C33_propagate_partial htyp hho h1 _ h2
    obtain ⟨ψ, hψ, e3⟩ := Ev.mapO_mem' ha φ hφ
    obtain rfl := Option.some.inj (e3.symm.trans e1)
    rw [← e2 ρ hρ]
    exact hs (.base ψ) (hin _ (.inr (.inr (.inr (.inl ⟨ψ, hψ, rfl⟩))))) nofun
  · intro r d hm
    obtain ⟨l, hl, hall⟩ := hunf r d hm
    exact (C49_msg_cond hL ht hwf ρ).1 fun ax hax => hall ax (C49_always_emitted r d P.P l hl ax hax)
  · intro hm hE
    obtain ⟨l, hl, hall⟩ := hunf true false hm
    exact C11_exec_recursive hL hrun hE hwf ρ l hl hall
  · intro hm c hcm hcw ks hks j d v hd hv
    obtain ⟨l, hl, hall⟩ := hass _ hm
    cases hl
    refine C12_determined hL ht hcw ρ (fun ax hax => ?_) ks hks j d v hd hv
    refine (holds_mapF M P.ι ax ρ).1 (hall (.base (ax.mapF P.ι)) (List.mem_cons_of_mem _ (List.mem_map.2 ⟨ax, ?_, rfl⟩)) nofun)
    exact List.mem_flatMap.2 ⟨c, hcm, hax⟩

end

/-! ### The example -/
namespace GEx

theorem satisfies (n : Nat) : Satisfies M (fun _ => .idx n) (file true false) := by
  obtain ⟨as, q, h1, h2, -⟩ := C71_sound_partial (file_eq true false) execution assOK userOK
  intro a ha hq
  rw [h1] at ha
  rcases List.mem_append.1 ha with ha | ha
  · exact h2 a ha _ (fun _ => ⟨n, rfl⟩)
  · exact absurd (List.mem_singleton.1 ha) (hq q)

/-- `C71_time`. -/
example := C71_time (file_eq true false) logic (i := stInit) rfl rfl
  (fun d hd => typed_fn (.s .pred) (by simp) [.step] .step rfl rfl [d] ⟨hd, trivial⟩) _ (satisfies 0)

/-- `C71_enough_partial`. -/
example : Meant (prob true false) M (fun _ => .idx 0) points .undef (.pt 0 []) :=
  C71_enough_partial (file_eq true false) logic run.toIsTrace (i := stInit) rfl rfl rfl execution.wf (by decide)
    (by
      intro s hs as has
      rcases run.inst s hs as has with h | h
      · exact .inl h
      · exact .inr h)
    userOK.typing execution.homo (fun φ hφ => userOK.push φ (List.mem_cons_of_mem _ hφ)) (fun _ => ⟨0, rfl⟩) (satisfies 0)

end GEx
end Gen
end CV
