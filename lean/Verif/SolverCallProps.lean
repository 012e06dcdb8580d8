import Verif.SolverCall
import Verif.NameProps
import Mathlib.Data.Fin.VecNotation
set_option linter.unusedSimpArgs false
set_option linter.unusedVariables false
set_option linter.unnecessarySeqFocus false
/-
Proofs of C93.
-/
namespace CV
namespace Slv
open SmtM (Txt)

/-! ### Command lines -/

section
variable {τ : Type} {shw : τ → Txt}

theorem args_dashes (a : VArg τ) : ∃ n, (a.toArgs shw).1 = '-' :: '-' :: n := by
  cases a <;> exact ⟨_, rfl⟩

/-- The options of a command line, by name. -/
def named (shw : τ → Txt) (a : VArg τ) : Txt × Txt := ((a.toArgs shw).1.drop 2, (a.toArgs shw).2)

/-- **C93, arguments.** The command line is read as exactly the options it is made of, in order, followed by the file: no option or value is taken for something else. -/
theorem C93_vampire_args (shw : τ → Txt) (extra args : List (VArg τ)) (f : Txt) :
    ReadArgs (vampireCmd shw extra args f) ((extra ++ args).map (named shw)) f := by
  simp only [vampireCmd]
  induction extra ++ args with
  | nil => exact .file f
  | cons a l ih =>
    obtain ⟨n, hn⟩ := args_dashes (shw := shw) a
    simp only [List.flatMap_cons, List.map_cons, List.cons_append, List.nil_append, named, hn, List.drop_succ_cons, List.drop_zero]
    exact .opt _ _ ih

theorem ReadArgs.det {as : List Txt} {os os' : List (Txt × Txt)} {f f' : Txt} (h : ReadArgs as os f) (h' : ReadArgs as os' f') : os = os' ∧ f = f' := by
  induction h generalizing os' with
  | file f => cases h'; exact ⟨rfl, rfl⟩
  | opt n v h ih =>
    cases h' with
    | opt _ _ h' => exact ⟨by rw [(ih h').1], (ih h').2⟩

theorem onOff_inj {a b : Bool} (h : onOff a = onOff b) : a = b := by
  revert h; revert a b; decide

/-- The names of the options. -/
def optName : Fin 12 → Txt := ![ "cores".toList, "memory_limit".toList, "mode".toList, "slowness".toList, "time_limit".toList, "input_syntax".toList,
  "newcnf".toList, "saturation_algorithm".toList, "avatar".toList, "sat_solver".toList, "show_new".toList, "inline_let".toList]

def VArg.idx : VArg τ → Fin 12
  | .cores _ => 0 | .memoryLimit _ => 1 | .mode => 2 | .slowness _ => 3 | .timeLimit _ => 4 | .inputSyntax _ => 5 | .newCnf _ => 6
  | .saturation _ => 7 | .avatar _ => 8 | .satSolver _ => 9 | .showNew _ => 10 | .inlineLet _ => 11

theorem optName_inj : ∀ i j, optName i = optName j → i = j := by decide +kernel

theorem named_fst (a : VArg τ) : (named shw a).1 = optName a.idx := by cases a <;> rfl

theorem syn_inj (x y : Syntax) : x.txt = y.txt → x = y := by cases x <;> cases y <;> decide
theorem satur_inj (x y : Satur) : x.txt = y.txt → x = y := by cases x <;> cases y <;> decide
theorem sats_inj (x y : SatS) : x.txt = y.txt → x = y := by cases x <;> cases y <;> decide

theorem named_inj (hs : ∀ s t, shw s = shw t → s = t) {a b : VArg τ} (h : named shw a = named shw b) : a = b := by
  have h1 : a.idx = b.idx := optName_inj _ _ (by rw [← named_fst (shw := shw), h, named_fst])
  have h2 : (a.toArgs shw).2 = (b.toArgs shw).2 := by
    have := congrArg Prod.snd h
    exact this
  clear h
  cases a <;> cases b <;> first
    | (simp [VArg.idx] at h1; done)
    | rfl
    | (rw [Cont.toDigits_inj h2])
    | (rw [hs _ _ h2])
    | (rw [onOff_inj h2])
    | (rw [syn_inj _ _ h2])
    | (rw [satur_inj _ _ h2])
    | (rw [sats_inj _ _ h2])

theorem map_inj' {α β : Type} {f : α → β} (hf : ∀ a b, f a = f b → a = b) : ∀ {l m : List α}, l.map f = m.map f → l = m
  | [], [], _ => rfl
  | [], _ :: _, h => by cases h
  | _ :: _, [], h => by cases h
  | a :: l, b :: m, h => by
    simp only [List.map_cons, List.cons.injEq] at h
    rw [hf _ _ h.1, map_inj' hf h.2]

/-- **C93, different options.** Different options or files give different command lines. -/
theorem C93_args_injective (hs : ∀ s t, shw s = shw t → s = t) (l m : List (VArg τ)) (f f' : Txt) (h : vampireCmd shw l [] f = vampireCmd shw m [] f') :
    l = m ∧ f = f' := by
  have h1 := C93_vampire_args shw l [] f
  have h2 := C93_vampire_args shw m [] f'
  rw [h] at h1
  obtain ⟨e, e'⟩ := h1.det h2
  simp only [List.append_nil] at e
  exact ⟨map_inj' (fun _ _ => named_inj hs) e, e'⟩

end

/-! ### Files -/

theorem mkdirAll_keeps {fs fs' : FS} {p q : Place} {n : Node} (h : mkdirAll fs p = some fs') (hq : fs q = some n) : fs' q = some n := by
  unfold mkdirAll at h
  split at h
  · cases h
  · next hn =>
    cases h
    show (if q <+: p then some Node.dir else fs q) = some n
    split
    · next hp =>
      cases n with
      | dir => rfl
      | file t =>
        exfalso
        apply hn
        rw [List.any_eq_true]
        exact ⟨q, List.mem_inits _ _ |>.2 hp, by simp [isFile, hq]⟩
    · exact hq

theorem mkdirAll_new {fs fs' : FS} {p q : Place} {n : Node} (h : mkdirAll fs p = some fs') (hq : fs' q = some n) :
    fs q = some n ∨ (q <+: p ∧ n = .dir) := by
  unfold mkdirAll at h
  split at h
  · cases h
  · cases h
    have hq : (if q <+: p then some Node.dir else fs q) = some n := hq
    split at hq
    · next hp => cases hq; exact .inr ⟨hp, rfl⟩
    · exact .inl hq

theorem isFile_iff {fs : FS} {p : Place} : isFile fs p = true ↔ ∃ t, fs p = some (.file t) := by
  unfold isFile
  split
  · next t h => simp [h]
  · next h =>
    constructor
    · intro h'; simp at h'
    · rintro ⟨t, ht⟩; exact (h t ht).elim

theorem isDir_iff {fs : FS} {p : Place} : isDir fs p = true ↔ fs p = some .dir := by
  unfold isDir
  split
  · next h => simp [h]
  · next h =>
    constructor
    · intro h'; simp at h'
    · intro ht; exact (h ht).elim

theorem put_same (fs : FS) (p : Place) (n : Option Node) : put fs p n p = n := by simp [put]
theorem put_other (fs : FS) {p q : Place} (n : Option Node) (h : q ≠ p) : put fs p n q = fs q := by simp [put, h]

/-! ### Invariant -/

/-- The file a thread works with. -/
def Live (st : St) (i : Nat) (p : Place) : Prop := st.ph i = .created p ∨ st.ph i = .written p ∨ st.ph i = .running p

section
variable {h : Host} {saveTo : Option Pth} {S : List Solver} {fs0 : FS}

/-- What a call has to be like. -/
def GoodCall (h : Host) (saveTo : Option Pth) (S : List Solver) (fs0 : FS) (c : Call) : Prop :=
  ∃ s t r, S[c.solver]? = some s ∧ s.text = some t ∧ c.argv = s.argv (h.show_ c.file) ∧ c.file = base h saveTo ++ [fileName s r] ∧
    c.contents = some (.file t) ∧ fs0 c.file = none

structure Inv (h : Host) (saveTo : Option Pth) (S : List Solver) (fs0 : FS) (st : St) : Prop where
  pre : ∀ q n, fs0 q = some n → st.fs q = some n
  fresh : ∀ i p, Live st i p → fs0 p = none ∧ ∃ s r, S[i]? = some s ∧ p = base h saveTo ++ [fileName s r]
  created : ∀ i p, st.ph i = .created p → st.fs p = some (.file [])
  written : ∀ i p, st.ph i = .written p ∨ st.ph i = .running p → ∃ s t, S[i]? = some s ∧ s.text = some t ∧ st.fs p = some (.file t)
  disj : ∀ i j p, Live st i p → Live st j p → i = j
  calls : ∀ c ∈ st.calls, GoodCall h saveTo S fs0 c
  once : (st.calls.map (·.solver)).Nodup
  started : ∀ i, i ∈ st.calls.map (·.solver) → (∃ p, st.ph i = .running p) ∨ st.ph i = .done
  runs : ∀ i p, st.ph i = .running p → ∃ c ∈ st.calls, c.solver = i ∧ c.file = p
  new : ∀ q n, fs0 q = none → st.fs q = some n → (n = .dir ∧ ∃ p, saveTo = some p ∧ q <+: p.place h.cwd) ∨ (∃ i, Live st i q) ∨
    (saveTo.isSome ∧ ((∃ c ∈ st.calls, c.file = q ∧ c.contents = some n) ∨ ∃ s ∈ S, s.text = none ∧ n = .file []))

theorem live_file {st : St} (hI : Inv h saveTo S fs0 st) {i : Nat} {p : Place} (hl : Live st i p) : ∃ t, st.fs p = some (.file t) := by
  rcases hl with hl | hl | hl
  · exact ⟨_, hI.created i p hl⟩
  · obtain ⟨s, t, _, _, e⟩ := hI.written i p (.inl hl); exact ⟨t, e⟩
  · obtain ⟨s, t, _, _, e⟩ := hI.written i p (.inr hl); exact ⟨t, e⟩

theorem to_ph (st : St) (i : Nat) (p : Phase) (j : Nat) : (st.to i p).ph j = if j = i then p else st.ph j := rfl

theorem init_inv : Inv h saveTo S fs0 ⟨fs0, fun _ => .idle, []⟩ where
  pre _ _ h := h
  fresh i p hl := by rcases hl with h | h | h <;> cases h
  created i p h := by cases h
  written i p h := by rcases h with h | h <;> cases h
  disj i j p hl := by rcases hl with h | h | h <;> cases h
  calls c hc := by cases hc
  once := List.nodup_nil
  started i hi := by cases hi
  runs i p h := by cases h
  new q n h1 h2 := by
    have h2 : fs0 q = some n := h2
    rw [h1] at h2; cases h2

/-- A thread that has no file moves on without one, while the others keep theirs. -/
theorem inv_move {st : St} (hI : Inv h saveTo S fs0 st) {i : Nat} {ph : Phase} {fs : FS} (hno : st.ph i = .idle ∨ st.ph i = .made)
    (hph : ph = .made ∨ ph = .failed) (hk : ∀ q n, st.fs q = some n → fs q = some n)
    (hn : ∀ q n, fs q = some n → st.fs q = some n ∨ (n = .dir ∧ ∃ p, saveTo = some p ∧ q <+: p.place h.cwd)) :
    Inv h saveTo S fs0 (({ st with fs := fs } : St).to i ph) := by
  have hnl : ∀ p, ph ≠ .created p ∧ ph ≠ .written p ∧ ph ≠ .running p := by
    intro p; rcases hph with rfl | rfl <;> simp
  have back : ∀ j q, (({ st with fs := fs } : St).to i ph).ph j = q → q ≠ ph → st.ph j = q := by
    intro j q hj hq
    rw [to_ph] at hj
    split at hj
    · exact (hq hj.symm).elim
    · exact hj
  have hlive : ∀ j p, Live (({ st with fs := fs } : St).to i ph) j p → Live st j p := by
    rintro j p (hl | hl | hl)
    · exact .inl (back j _ hl (hnl p).1.symm)
    · exact .inr (.inl (back j _ hl (hnl p).2.1.symm))
    · exact .inr (.inr (back j _ hl (hnl p).2.2.symm))
  have hlive' : ∀ j p, Live st j p → Live (({ st with fs := fs } : St).to i ph) j p := by
    intro j p hl
    have : j ≠ i := by
      rintro rfl
      rcases hl with e | e | e <;> rcases hno with e' | e' <;> rw [e] at e' <;> cases e'
    simpa [Live, to_ph, this] using hl
  constructor
  · exact fun q n hq => hk _ _ (hI.pre q n hq)
  · exact fun j p hl => hI.fresh j p (hlive j p hl)
  · exact fun j p hl => hk _ _ (hI.created j p (back j _ hl (hnl p).1.symm))
  · intro j p hl
    obtain ⟨s, t, e1, e2, e3⟩ := hI.written j p (hl.imp (fun e => back j _ e (hnl p).2.1.symm) fun e => back j _ e (hnl p).2.2.symm)
    exact ⟨s, t, e1, e2, hk _ _ e3⟩
  · exact fun j k p h1 h2 => hI.disj j k p (hlive j p h1) (hlive k p h2)
  · exact hI.calls
  · exact hI.once
  · intro j hj
    have : j ≠ i := by
      rintro rfl
      rcases hI.started j hj with ⟨p, e⟩ | e <;> rcases hno with e' | e' <;> rw [e] at e' <;> cases e'
    simpa [to_ph, this] using hI.started j hj
  · exact fun j p hj => hI.runs j p (back j _ hj (hnl p).2.2.symm)
  · intro q n h1 h2
    rcases hn q n h2 with h2 | h2
    · rcases hI.new q n h1 h2 with h | ⟨j, hj⟩ | h
      · exact .inl h
      · exact .inr (.inl ⟨j, hlive' j q hj⟩)
      · exact .inr (.inr h)
    · exact .inl h2

/-- A thread's file is dropped or kept. -/
theorem inv_end {st : St} (hI : Inv h saveTo S fs0 st) {i : Nat} {p : Place} {ph : Phase} (hl : Live st i p) (hph : ph = .done ∨ ph = .failed)
    (hcall : i ∈ st.calls.map (·.solver) → ph = .done)
    (hkept : ∀ n, st.fs p = some n → (∃ c ∈ st.calls, c.file = p ∧ c.contents = some n) ∨ ∃ s ∈ S, s.text = none ∧ n = .file []) :
    Inv h saveTo S fs0 (({ st with fs := if saveTo.isSome then st.fs else put st.fs p none } : St).to i ph) := by
  have hne : ∀ q, ph ≠ .created q ∧ ph ≠ .written q ∧ ph ≠ .running q := by
    intro q; rcases hph with rfl | rfl <;> simp
  generalize hfs : (if saveTo.isSome then st.fs else put st.fs p none) = fs
  have hk : ∀ q, q ≠ p → fs q = st.fs q := by
    intro q hq
    rw [← hfs]
    split
    · rfl
    · exact put_other _ _ hq
  have hj : ∀ j q, q ≠ ph → (({ st with fs := fs } : St).to i ph).ph j = q → j ≠ i ∧ st.ph j = q := by
    intro j q hq e
    rw [to_ph] at e
    split at e
    · exact (hq e.symm).elim
    · next hji => exact ⟨hji, e⟩
  have hlive : ∀ j q, Live (({ st with fs := fs } : St).to i ph) j q → j ≠ i ∧ Live st j q := by
    rintro j q (e | e | e)
    · have := hj j _ (hne q).1.symm e; exact ⟨this.1, .inl this.2⟩
    · have := hj j _ (hne q).2.1.symm e; exact ⟨this.1, .inr (.inl this.2)⟩
    · have := hj j _ (hne q).2.2.symm e; exact ⟨this.1, .inr (.inr this.2)⟩
  have hpq : ∀ j q, j ≠ i → Live st j q → q ≠ p := by
    rintro j q hji hq rfl
    exact hji (hI.disj j i q hq hl)
  constructor
  · intro q n hq
    have : q ≠ p := by rintro rfl; rw [(hI.fresh i q hl).1] at hq; cases hq
    show fs q = _
    rw [hk q this]
    exact hI.pre q n hq
  · exact fun j q hq => hI.fresh j q (hlive j q hq).2
  · intro j q e
    have := hj j _ (hne q).1.symm e
    show fs q = _
    rw [hk q (hpq j q this.1 (.inl this.2))]
    exact hI.created j q this.2
  · intro j q e
    have : j ≠ i ∧ (st.ph j = .written q ∨ st.ph j = .running q) := by
      rcases e with e | e
      · have := hj j _ (hne q).2.1.symm e; exact ⟨this.1, .inl this.2⟩
      · have := hj j _ (hne q).2.2.symm e; exact ⟨this.1, .inr this.2⟩
    obtain ⟨s, t, e1, e2, e3⟩ := hI.written j q this.2
    refine ⟨s, t, e1, e2, ?_⟩
    show fs q = _
    rw [hk q (hpq j q this.1 (.inr this.2))]
    exact e3
  · exact fun j k q h1 h2 => hI.disj j k q (hlive j q h1).2 (hlive k q h2).2
  · exact hI.calls
  · exact hI.once
  · intro j hjc
    by_cases hji : j = i
    · subst hji
      refine .inr ?_
      rw [to_ph, if_pos rfl]
      exact hcall hjc
    · simpa [to_ph, hji] using hI.started j hjc
  · intro j q e
    exact hI.runs j q (hj j _ (hne q).2.2.symm e).2
  · intro q n h1 h2
    have h2 : fs q = some n := h2
    by_cases hq : q = p
    · subst hq
      rw [← hfs] at h2
      split at h2
      · next hs => exact .inr (.inr ⟨hs, hkept n h2⟩)
      · rw [put_same] at h2; cases h2
    · rw [hk q hq] at h2
      rcases hI.new q n h1 h2 with h | ⟨j, hjl⟩ | h
      · exact .inl h
      · refine .inr (.inl ⟨j, ?_⟩)
        have : j ≠ i := by
          rintro rfl
          apply hq
          rcases hjl with e | e | e <;> rcases hl with e' | e' | e' <;> rw [e] at e' <;> cases e' <;> rfl
        simpa [Live, to_ph, this] using hjl
      · exact .inr (.inr h)

theorem step_inv {st st' : St} (hI : Inv h saveTo S fs0 st) (hs : Step h saveTo S st st') : Inv h saveTo S fs0 st' := by
  cases hs with
  | @mkdir fs i s hS hi hd hn =>
    refine inv_move hI (.inl hi) (.inl rfl) ?_ ?_
    · intro q n hq
      cases e : saveTo with
      | none => rw [hn e]; exact hq
      | some p => exact mkdirAll_keeps (hd p e).2 hq
    · intro q n hq
      cases e : saveTo with
      | none => rw [hn e] at hq; exact .inl hq
      | some p =>
        rcases mkdirAll_new (hd p e).2 hq with h1 | h1
        · exact .inl h1
        · exact .inr ⟨h1.2, p, rfl, h1.1⟩
  | noDir i s p hS hi hp hd => exact inv_move hI (.inl hi) (.inr rfl) (fun _ _ h => h) fun _ _ h => .inl h
  | noFile i s hS hi hd => exact inv_move hI (.inr hi) (.inr rfl) (fun _ _ h => h) fun _ _ h => .inl h
  | create i s r hS hi hd hf =>
    generalize hp : base h saveTo ++ [fileName s r] = p at hf
    have hpq : ∀ j q, Live st j q → q ≠ p := by
      rintro j q hl rfl
      obtain ⟨t, ht⟩ := live_file hI hl
      rw [hf] at ht; cases ht
    have hold : ∀ q n, st.fs q = some n → put st.fs p (some (.file [])) q = some n := by
      intro q n hq
      rw [put_other _ _ (by rintro rfl; rw [hf] at hq; cases hq)]
      exact hq
    have hji : ∀ j q, Live st j q → j ≠ i := by
      rintro j q hl rfl
      rcases hl with e | e | e <;> rw [hi] at e <;> cases e
    have hlive : ∀ j q, Live (({ st with fs := put st.fs p (some (.file [])) } : St).to i (.created p)) j q → (j = i ∧ q = p) ∨ (j ≠ i ∧ Live st j q) := by
      intro j q hl
      simp only [Live, to_ph] at hl
      by_cases hj : j = i
      · simp only [if_pos hj, reduceCtorEq, or_false, Phase.created.injEq] at hl
        exact .inl ⟨hj, hl.symm⟩
      · simp only [if_neg hj] at hl
        exact .inr ⟨hj, hl⟩
    constructor
    · exact fun q n hq => hold q n (hI.pre q n hq)
    · intro j q hl
      rcases hlive j q hl with ⟨rfl, rfl⟩ | ⟨_, hl⟩
      · refine ⟨?_, s, r, hS, hp.symm⟩
        cases e : fs0 q with
        | none => rfl
        | some n => have := hI.pre _ _ e; rw [hf] at this; cases this
      · exact hI.fresh j q hl
    · intro j q e
      rw [to_ph] at e
      split at e
      · cases e; exact put_same _ _ _
      · exact hold _ _ (hI.created j q e)
    · intro j q e
      have : st.ph j = .written q ∨ st.ph j = .running q := by
        simp only [to_ph] at e
        split at e
        · rcases e with e | e <;> cases e
        · exact e
      obtain ⟨s, t, e1, e2, e3⟩ := hI.written j q this
      exact ⟨s, t, e1, e2, hold _ _ e3⟩
    · intro j k q h1 h2
      rcases hlive j q h1 with ⟨rfl, rfl⟩ | ⟨_, h1'⟩ <;> rcases hlive k q h2 with ⟨rfl, e⟩ | ⟨_, h2'⟩
      · rfl
      · exact (hpq k _ h2' rfl).elim
      · exact (hpq j _ h1' e).elim
      · exact hI.disj j k q h1' h2'
    · exact hI.calls
    · exact hI.once
    · intro j hj
      have : j ≠ i := by
        rintro rfl
        rcases hI.started j hj with ⟨p, e⟩ | e <;> rw [hi] at e <;> cases e
      simpa [to_ph, this] using hI.started j hj
    · intro j q e
      rw [to_ph] at e
      split at e
      · cases e
      · exact hI.runs j q e
    · intro q n h1 h2
      have h2 : put st.fs p (some (.file [])) q = some n := h2
      by_cases hq : q = p
      · subst hq
        exact .inr (.inl ⟨i, .inl (by rw [to_ph, if_pos rfl])⟩)
      · rw [put_other _ _ hq] at h2
        rcases hI.new q n h1 h2 with h | ⟨j, hj⟩ | h
        · exact .inl h
        · exact .inr (.inl ⟨j, by simpa [Live, to_ph, hji j q hj] using hj⟩)
        · exact .inr (.inr h)
  | write i s p t hS hi ht =>
    have hl : Live st i p := .inl hi
    have hk : ∀ q, q ≠ p → put st.fs p (some (.file t)) q = st.fs q := fun q hq => put_other _ _ hq
    have hlive : ∀ j q, Live (({ st with fs := put st.fs p (some (.file t)) } : St).to i (.written p)) j q → (j = i ∧ q = p) ∨ (j ≠ i ∧ Live st j q) := by
      intro j q hl
      simp only [Live, to_ph] at hl
      by_cases hj : j = i
      · simp only [if_pos hj, reduceCtorEq, or_false, false_or, Phase.written.injEq] at hl
        exact .inl ⟨hj, hl.symm⟩
      · simp only [if_neg hj] at hl
        exact .inr ⟨hj, hl⟩
    have hpq : ∀ j q, j ≠ i → Live st j q → q ≠ p := by
      rintro j q hji hq rfl
      exact hji (hI.disj j i q hq hl)
    constructor
    · intro q n hq
      have : q ≠ p := by rintro rfl; rw [(hI.fresh i q hl).1] at hq; cases hq
      show put _ _ _ q = _
      rw [hk q this]
      exact hI.pre q n hq
    · intro j q hq
      rcases hlive j q hq with ⟨rfl, rfl⟩ | ⟨_, hq⟩
      · exact hI.fresh _ _ hl
      · exact hI.fresh j q hq
    · intro j q e
      rw [to_ph] at e
      split at e
      · cases e
      · next hji =>
        show put _ _ _ q = _
        rw [hk q (hpq j q hji (.inl e))]
        exact hI.created j q e
    · intro j q e
      by_cases hji : j = i
      · subst hji
        simp only [to_ph, if_true, Phase.written.injEq, reduceCtorEq, or_false] at e
        subst e
        exact ⟨s, t, hS, ht, put_same _ _ _⟩
      · simp only [to_ph, if_neg hji] at e
        obtain ⟨s, t, e1, e2, e3⟩ := hI.written j q e
        refine ⟨s, t, e1, e2, ?_⟩
        show put _ _ _ q = _
        rw [hk q (hpq j q hji (.inr e))]
        exact e3
    · intro j k q h1 h2
      rcases hlive j q h1 with ⟨rfl, rfl⟩ | ⟨n1, h1'⟩ <;> rcases hlive k q h2 with ⟨rfl, e⟩ | ⟨n2, h2'⟩
      · rfl
      · exact (hpq k _ n2 h2' rfl).elim
      · exact (hpq j _ n1 h1' e).elim
      · exact hI.disj j k q h1' h2'
    · exact hI.calls
    · exact hI.once
    · intro j hj
      have : j ≠ i := by
        rintro rfl
        rcases hI.started j hj with ⟨p, e⟩ | e <;> rw [hi] at e <;> cases e
      simpa [to_ph, this] using hI.started j hj
    · intro j q e
      rw [to_ph] at e
      split at e
      · cases e
      · exact hI.runs j q e
    · intro q n h1 h2
      have h2 : put st.fs p (some (.file t)) q = some n := h2
      by_cases hq : q = p
      · subst hq
        exact .inr (.inl ⟨i, .inr (.inl (by rw [to_ph, if_pos rfl]))⟩)
      · rw [hk q hq] at h2
        rcases hI.new q n h1 h2 with h | ⟨j, hj⟩ | h
        · exact .inl h
        · refine .inr (.inl ⟨j, ?_⟩)
          have : j ≠ i := by
            rintro rfl
            apply hq
            rcases hj with e | e | e <;> rw [hi] at e <;> cases e
            rfl
          simpa [Live, to_ph, this] using hj
        · exact .inr (.inr h)
  | panic i s p hS hi ht =>
    refine inv_end hI (.inl hi) (.inr rfl) ?_ ?_
    · intro hc
      rcases hI.started i hc with ⟨p, e⟩ | e <;> rw [hi] at e <;> cases e
    · intro n hn
      rw [hI.created i p hi] at hn
      cases hn
      exact .inr ⟨s, List.mem_of_getElem? hS, ht, rfl⟩
  | start i s p hS hi hf =>
    obtain ⟨s', t, e1, e2, e3⟩ := hI.written i p (.inl hi)
    obtain rfl := Option.some.inj (e1.symm.trans hS)
    have hl : Live st i p := .inr (.inl hi)
    have hnot : i ∉ st.calls.map (·.solver) := by
      intro hc
      rcases hI.started i hc with ⟨p, e⟩ | e <;> rw [hi] at e <;> cases e
    have hlive : ∀ j q, Live (({ st with calls := ⟨i, s'.argv (h.show_ p), p, st.fs p⟩ :: st.calls } : St).to i (.running p)) j q → Live st j q := by
      intro j q hl'
      simp only [Live, to_ph] at hl'
      by_cases hj : j = i
      · simp only [if_pos hj, reduceCtorEq, false_or, Phase.running.injEq] at hl'
        rw [hj, ← hl']
        exact hl
      · simp only [if_neg hj] at hl'
        exact hl'
    have hlive' : ∀ j q, Live st j q → Live (({ st with calls := ⟨i, s'.argv (h.show_ p), p, st.fs p⟩ :: st.calls } : St).to i (.running p)) j q := by
      intro j q hq
      by_cases hj : j = i
      · subst hj
        refine .inr (.inr ?_)
        rw [to_ph, if_pos rfl]
        rcases hq with e | e | e <;> rw [hi] at e <;> cases e
        rfl
      · simpa [Live, to_ph, hj] using hq
    constructor
    · exact hI.pre
    · exact fun j q hq => hI.fresh j q (hlive j q hq)
    · intro j q e
      rw [to_ph] at e
      split at e
      · cases e
      · exact hI.created j q e
    · intro j q e
      by_cases hj : j = i
      · subst hj
        simp only [to_ph, if_true, reduceCtorEq, Phase.running.injEq, false_or] at e
        subst e
        exact ⟨s', t, e1, e2, e3⟩
      · simp only [to_ph, if_neg hj] at e
        exact hI.written j q e
    · exact fun j k q h1 h2 => hI.disj j k q (hlive j q h1) (hlive k q h2)
    · intro c hc
      rcases List.mem_cons.1 hc with rfl | hc
      · obtain ⟨hf0, s2, r, h2, h3⟩ := hI.fresh i p hl
        obtain rfl := Option.some.inj (e1.symm.trans h2)
        exact ⟨s', t, r, e1, e2, rfl, h3, e3, hf0⟩
      · exact hI.calls c hc
    · exact List.nodup_cons.2 ⟨hnot, hI.once⟩
    · intro j hj
      rcases List.mem_cons.1 hj with rfl | hj'
      · exact .inl ⟨p, by rw [to_ph, if_pos rfl]⟩
      · have : j ≠ i := by rintro rfl; exact hnot hj'
        simpa [to_ph, this] using hI.started j hj'
    · intro j q e
      rw [to_ph] at e
      split at e
      · next hj => cases e; exact ⟨_, List.mem_cons_self, hj.symm, rfl⟩
      · obtain ⟨c, hc, h1⟩ := hI.runs j q e
        exact ⟨c, List.mem_cons_of_mem _ hc, h1⟩
    · intro q n h1 h2
      rcases hI.new q n h1 h2 with h | ⟨j, hj⟩ | ⟨h, ⟨c, hc, h3⟩ | h3⟩
      · exact .inl h
      · exact .inr (.inl ⟨j, hlive' j q hj⟩)
      · exact .inr (.inr ⟨h, .inl ⟨c, List.mem_cons_of_mem _ hc, h3⟩⟩)
      · exact .inr (.inr ⟨h, .inr h3⟩)
  | finish i s p hS hi =>
    refine inv_end hI (.inr (.inr hi)) (.inl rfl) (fun _ => rfl) ?_
    intro n hn
    obtain ⟨c, hc, h1, h2⟩ := hI.runs i p hi
    obtain ⟨s', t, e1, e2, e3⟩ := hI.written i p (.inr hi)
    obtain ⟨s2, t2, r, g1, g2, g3, g4, g5, g6⟩ := hI.calls c hc
    rw [h1, e1] at g1
    cases g1
    rw [e2] at g2
    cases g2
    rw [e3] at hn
    cases hn
    exact .inl ⟨c, hc, h2, g5⟩

theorem reach_inv {st : St} (hr : Reach h saveTo S fs0 st) : Inv h saveTo S fs0 st := by
  induction hr with
  | init => exact init_inv
  | step _ s ih => exact step_inv ih s

/-! ### Properties -/

/-- **C93, calls.** In whatever order the threads of a round run, every solver that is started is started on a new file, made for it, which at that moment holds exactly
the text written for this solver; and no solver is started twice in a round. -/
theorem C93_called {st : St} (hr : Reach h saveTo S fs0 st) : (∀ c ∈ st.calls, GoodCall h saveTo S fs0 c) ∧ (st.calls.map (·.solver)).Nodup :=
  ⟨(reach_inv hr).calls, (reach_inv hr).once⟩

/-- **C93, still there.** As long as a solver runs, its file holds its text. -/
theorem C93_running {st : St} (hr : Reach h saveTo S fs0 st) (i : Nat) (p : Place) (hi : st.ph i = .running p) :
    ∃ c ∈ st.calls, c.solver = i ∧ c.file = p ∧ c.contents = st.fs p := by
  obtain ⟨c, hc, h1, h2⟩ := (reach_inv hr).runs i p hi
  obtain ⟨s', t, e1, e2, e3⟩ := (reach_inv hr).written i p (.inr hi)
  obtain ⟨s2, t2, r, g1, g2, g3, g4, g5, g6⟩ := (reach_inv hr).calls c hc
  rw [h1, e1] at g1
  cases g1
  rw [e2] at g2
  cases g2
  exact ⟨c, hc, h1, h2, by rw [g5, e3]⟩

/-- **C93, nothing else is touched.** What was there before is still there, unchanged, at any moment. -/
theorem C93_untouched {st : St} (hr : Reach h saveTo S fs0 st) (q : Place) (n : Node) (hq : fs0 q = some n) : st.fs q = some n :=
  (reach_inv hr).pre q n hq

/-- **C93, nothing is left.** When no directory is given and all the threads have ended, the file system is as before. -/
theorem C93_clean {st : St} (hr : Reach h none S fs0 st) (he : ∀ i p, ¬ Live st i p) : st.fs = fs0 := by
  funext q
  have hI := reach_inv hr
  cases e : fs0 q with
  | some n => exact hI.pre q n e
  | none =>
    cases e' : st.fs q with
    | none => rfl
    | some n =>
      rcases hI.new q n e e' with ⟨_, p, h, _⟩ | ⟨i, h⟩ | ⟨h, _⟩
      · cases h
      · exact (he i q h).elim
      · cases h

/-- **C93, what is kept.** When an absolute directory is given, the file of every solver that was started is in this directory and is kept with the text that the solver
was given; apart from these files (and those of solvers for which there is no text) only directories on the way are new. Missing: relative directories, see the counterexamples. -/
theorem C93_kept_partial {p : Pth} (hp : p.abs = true) {st : St} (hr : Reach h (some p) S fs0 st) :
    (∀ c ∈ st.calls, ∃ f, c.file = p.comps ++ [f]) ∧
    ∀ q n, fs0 q = none → st.fs q = some n → (∀ i, ¬ Live st i q) →
      (n = .dir ∧ q <+: p.comps) ∨ (∃ c ∈ st.calls, c.file = q ∧ c.contents = some n) ∨ ∃ s ∈ S, s.text = none ∧ n = .file [] := by
  have hI := reach_inv hr
  constructor
  · intro c hc
    obtain ⟨s, t, r, g1, g2, g3, g4, g5, g6⟩ := hI.calls c hc
    refine ⟨fileName s r, ?_⟩
    rw [g4]
    simp [base, Pth.join, Pth.place, hp]
  · intro q n h1 h2 h3
    rcases hI.new q n h1 h2 with ⟨h, p', e, h'⟩ | ⟨i, h⟩ | ⟨_, h⟩
    · cases e
      simp only [Pth.place, hp, if_true] at h'
      exact .inl ⟨h, h'⟩
    · exact (h3 i h).elim
    · exact .inr h

/-- **C93, files stay.** When a directory is given, the file of every solver that was started stays, with the text it was started on. -/
theorem C93_stays {p : Pth} {st : St} (hr : Reach h (some p) S fs0 st) : ∀ c ∈ st.calls, st.fs c.file = c.contents := by
  suffices hs : ∀ c ∈ st.calls, st.fs c.file = c.contents ∧ ∀ i, Live st i c.file → i = c.solver from fun c hc => (hs c hc).1
  induction hr with
  | init => intro c hc; cases hc
  | @step st st' r hst ih =>
    have hI := reach_inv r
    have hc' : ∀ c ∈ st.calls, ∃ t, c.contents = some (.file t) := by
      intro c hc
      obtain ⟨s, t, r, g1, g2, g3, g4, g5, g6⟩ := hI.calls c hc
      exact ⟨t, g5⟩
    cases hst with
    | @mkdir fs i s hS hi hd hn =>
      intro c hc
      obtain ⟨t, ht⟩ := hc' c hc
      have := ih c hc
      refine ⟨?_, fun j hj => this.2 j ?_⟩
      · rw [ht] at this ⊢
        exact mkdirAll_keeps (hd p rfl).2 this.1
      · simp only [Live, to_ph] at hj
        split at hj
        · simp at hj
        · exact hj
    | noDir i s p hS hi hp hd =>
      intro c hc
      refine ⟨(ih c hc).1, fun j hj => (ih c hc).2 j ?_⟩
      simp only [Live, to_ph] at hj
      split at hj
      · simp at hj
      · exact hj
    | noFile i s hS hi hd =>
      intro c hc
      refine ⟨(ih c hc).1, fun j hj => (ih c hc).2 j ?_⟩
      simp only [Live, to_ph] at hj
      split at hj
      · simp at hj
      · exact hj
    | create i s r hS hi hd hf =>
      intro c hc
      obtain ⟨t, ht⟩ := hc' c hc
      have hne : c.file ≠ base h (some p) ++ [fileName s r] := by
        intro e
        have := (ih c hc).1
        rw [e, hf, ht] at this
        cases this
      refine ⟨?_, fun j hj => ?_⟩
      · show put _ _ _ _ = _
        rw [put_other _ _ hne]
        exact (ih c hc).1
      · simp only [Live, to_ph] at hj
        split at hj
        · simp only [Phase.created.injEq, reduceCtorEq, or_false] at hj
          exact (hne hj.symm).elim
        · exact (ih c hc).2 j hj
    | write i s q t hS hi ht =>
      intro c hc
      have hne : c.file ≠ q := by
        rintro rfl
        have := (ih c hc).2 i (.inl hi)
        rcases hI.started i (this ▸ List.mem_map_of_mem hc) with ⟨_, e⟩ | e <;> rw [hi] at e <;> cases e
      refine ⟨?_, fun j hj => ?_⟩
      · show put _ _ _ _ = _
        rw [put_other _ _ hne]
        exact (ih c hc).1
      · simp only [Live, to_ph] at hj
        split at hj
        · simp only [Phase.written.injEq, reduceCtorEq, or_false, false_or] at hj
          exact (hne hj.symm).elim
        · exact (ih c hc).2 j hj
    | panic i s q hS hi ht =>
      intro c hc
      refine ⟨(ih c hc).1, fun j hj => (ih c hc).2 j ?_⟩
      simp only [Live, to_ph] at hj
      split at hj
      · simp at hj
      · exact hj
    | start i s q hS hi hf =>
      intro c hc
      rcases List.mem_cons.1 hc with rfl | hc2
      · refine ⟨rfl, fun j hj => ?_⟩
        simp only [Live, to_ph] at hj
        split at hj
        · next e => exact e
        · exact hI.disj j i q hj (.inr (.inl hi))
      · have hne : c.file ≠ q := by
          rintro rfl
          have := (ih c hc2).2 i (.inr (.inl hi))
          rcases hI.started i (this ▸ List.mem_map_of_mem hc2) with ⟨_, e⟩ | e <;> rw [hi] at e <;> cases e
        refine ⟨(ih c hc2).1, fun j hj => ?_⟩
        simp only [Live, to_ph] at hj
        split at hj
        · simp only [Phase.running.injEq, reduceCtorEq, false_or] at hj
          exact (hne hj.symm).elim
        · exact (ih c hc2).2 j hj
    | finish i s q hS hi =>
      intro c hc
      refine ⟨(ih c hc).1, fun j hj => (ih c hc).2 j ?_⟩
      simp only [Live, to_ph] at hj
      split at hj
      · simp at hj
      · exact hj

/-- **C93 does not hold for relative directories.** `--solver-file-debug` with a relative path makes this directory in the current directory, but the files are looked for
under the directory for temporary files: unless the same path happens to be there, no solver is ever started. -/
theorem C93_relative_counterexample {p : Pth} (hp : p.abs = false) (hd : fs0 ((h.tmp.join p).place h.cwd) ≠ some .dir)
    (hn : ¬ (h.tmp.join p).place h.cwd <+: h.cwd ++ p.comps) {st : St} (hr : Reach h (some p) S fs0 st) : st.calls = [] := by
  have key : st.fs ((h.tmp.join p).place h.cwd) ≠ some .dir ∧ (∀ i q, ¬ Live st i q) ∧ st.calls = [] := by
    induction hr with
    | init =>
      refine ⟨hd, ?_, rfl⟩
      intro i q hl
      rcases hl with e | e | e <;> cases e
    | @step st st' r hst ih =>
      obtain ⟨h1, h2, h3⟩ := ih
      have hmv : ∀ i ph, (∀ q, ph ≠ .created q ∧ ph ≠ .written q ∧ ph ≠ .running q) → ∀ j q, ¬ Live (st.to i ph) j q := by
        intro i ph hph j q hl
        simp only [Live, to_ph] at hl
        split at hl
        · rcases hl with e | e | e
          · exact (hph q).1 e
          · exact (hph q).2.1 e
          · exact (hph q).2.2 e
        · exact h2 j q hl
      cases hst with
      | @mkdir fs i s hS hi hd' hn' =>
        refine ⟨fun e => ?_, hmv i .made (by simp), h3⟩
        rcases mkdirAll_new (hd' p rfl).2 e with e | ⟨e, _⟩
        · exact h1 e
        · simp only [Pth.place, hp, Bool.false_eq_true, if_false] at e hn
          exact hn e
      | noDir i s p hS hi hp hd => exact ⟨h1, hmv i .failed (by simp), h3⟩
      | noFile i s hS hi hd => exact ⟨h1, hmv i .failed (by simp), h3⟩
      | create i s r hS hi hd hf => exact (h1 (isDir_iff.1 hd)).elim
      | write i s q t hS hi ht => exact (h2 i q (.inl hi)).elim
      | panic i s q hS hi ht => exact (h2 i q (.inl hi)).elim
      | start i s q hS hi hf => exact (h2 i q (.inr (.inl hi))).elim
      | finish i s q hS hi => exact (h2 i q (.inr (.inr hi))).elim
  exact key.2.2

/-- Even if solvers are started, their files are not in the relative directory that was asked for, unless the directory for temporary files is the current one. -/
theorem C93_elsewhere_counterexample {p : Pth} (hp : p.abs = false) (ht : h.tmp.abs = true) (hn : h.tmp.comps ≠ h.cwd) {st : St}
    (hr : Reach h (some p) S fs0 st) (c : Call) (hc : c ∈ st.calls) (f : Txt) : c.file ≠ h.cwd ++ p.comps ++ [f] := by
  obtain ⟨s, t, r, g1, g2, g3, g4, g5, g6⟩ := (reach_inv hr).calls c hc
  intro e
  rw [g4] at e
  simp only [base, Pth.join, Pth.place, hp, ht, if_true, Bool.false_eq_true, if_false] at e
  have e := List.append_cancel_right_eq .. |>.mp (List.append_inj_left' e rfl)
  exact hn e

/-! ### Reaching a call -/

/-- A thread can get its solver started, whatever the others do meanwhile. -/
theorem can_start {st : St} (hr : Reach h saveTo S fs0 st) {i : Nat} {s : Solver} {t : Txt} (hS : S[i]? = some s) (ht : s.text = some t) (hi : st.ph i = .made)
    (hd : isDir st.fs (base h saveTo) = true) {r : Txt} (hf : st.fs (base h saveTo ++ [fileName s r]) = none) :
    ∃ st', Reach h saveTo S fs0 st' ∧ ∃ c ∈ st'.calls, c.solver = i := by
  refine ⟨_, .step (.step (.step hr (.create i s r hS hi hd hf)) (.write i s (base h saveTo ++ [fileName s r]) t hS ?_ ht))
    (.start i s (base h saveTo ++ [fileName s r]) hS ?_ ?_), ⟨_, List.mem_cons_self, rfl⟩⟩
  · rw [to_ph, if_pos rfl]
  · rw [to_ph, if_pos rfl]
  · exact isFile_iff.2 ⟨t, put_same _ _ _⟩

/-- **C93, solvers are started.** Without a directory for the files, if the one for temporary files is there, every solver for which there is a text can be started. -/
theorem C93_starts {i : Nat} {s : Solver} {t : Txt} (hS : S[i]? = some s) (ht : s.text = some t) (hd : fs0 (h.tmp.place h.cwd) = some .dir) {r : Txt}
    (hf : fs0 (h.tmp.place h.cwd ++ [fileName s r]) = none) : ∃ st, Reach h none S fs0 st ∧ ∃ c ∈ st.calls, c.solver = i := by
  have r0 : Reach h none S fs0 _ := .step .init (.mkdir (fs := fs0) i s hS rfl (fun p e => by cases e) fun _ => rfl)
  refine can_start r0 hS ht ?_ (isDir_iff.2 hd) (r := r) hf
  rw [to_ph, if_pos rfl]

/-- **C93, solvers are started and their files kept.** The same with an absolute directory that is there or can be made. -/
theorem C93_starts_saved {p : Pth} (hp : p.abs = true) {i : Nat} {s : Solver} {t : Txt} (hS : S[i]? = some s) (ht : s.text = some t)
    (hd : ∀ q, q <+: p.comps → ∀ u, fs0 q ≠ some (.file u)) {r : Txt} (hf : fs0 (p.comps ++ [fileName s r]) = none) :
    ∃ st, Reach h (some p) S fs0 st ∧ ∃ c ∈ st.calls, c.solver = i := by
  have hm : mkdirAll fs0 (p.place h.cwd) = some fun q => if q <+: p.comps then some .dir else fs0 q := by
    simp only [mkdirAll, Pth.place, hp, if_true]
    rw [if_neg]
    intro e
    obtain ⟨q, hq, e⟩ := List.any_eq_true.1 e
    obtain ⟨u, hu⟩ := isFile_iff.1 e
    exact hd q ((List.mem_inits _ _).1 hq) u hu
  have r0 : Reach h (some p) S fs0 _ := .step .init (.mkdir i s hS rfl (fun p' e => by
    cases e
    refine ⟨?_, hm⟩
    cases e : isFile fs0 (p.place h.cwd) with
    | false => rfl
    | true =>
      obtain ⟨u, hu⟩ := isFile_iff.1 e
      simp only [Pth.place, hp, if_true] at hu
      exact (hd _ (List.prefix_refl _) u hu).elim) fun e => by cases e)
  have hb : base h (some p) = p.comps := by simp [base, Pth.join, Pth.place, hp]
  refine can_start r0 hS ht ?_ ?_ (r := r) ?_
  · rw [to_ph, if_pos rfl]
  · rw [isDir_iff, hb]
    show (if p.comps <+: p.comps then some Node.dir else _) = _
    rw [if_pos (List.prefix_refl _)]
  · rw [hb]
    show (if p.comps ++ [fileName s r] <+: p.comps then some Node.dir else fs0 _) = _
    rw [if_neg]
    · exact hf
    · intro e
      have := e.length_le
      rw [List.length_append, List.length_singleton] at this
      omega

end

/-! ### The solvers of a configuration -/

section
variable {τ F : Type} {shw : τ → Txt} {which : Txt → Option Txt} {K : SmtM.SymInfo F} {o : SmtM.Opts} {g : SmtM.GenFile F} {c : Config τ}

/-- **C93, which solvers.** A solver is among those of a round exactly if it is enabled and its program is found. -/
theorem C93_solvers (s : Solver) : s ∈ solvers shw which K o g c ↔
    (c.vampire = true ∧ ∃ exe, which c.vampireLoc = some exe ∧ s.name = "vampire".toList ∧ s.text = SmtM.output K o.vampire g ∧
      s.argv = fun f => exe :: vampireCmd shw [.timeLimit c.timeout] defaultArgs f) ∨
    (c.z3 = true ∧ ∃ exe, which c.z3Loc = some exe ∧ s.name = "z3".toList ∧ s.text = SmtM.output K o.z3 g ∧
      s.argv = fun f => [exe, "-T:".toList ++ shw c.timeout, f]) := by
  obtain ⟨n, t, a⟩ := s
  unfold solvers
  rw [List.mem_append]
  apply or_congr
  · cases c.vampire <;> cases which c.vampireLoc <;> simp
  · cases c.z3 <;> cases which c.z3Loc <;> simp [z3Cmd]

/-- **C93, command lines.** In every round with the solvers of a configuration, each solver that is started runs the program that was found, with the time limit of the configuration, on the file
that holds the text for this solver: for vampire as one of its options, of which none is given twice, and with the input language that the text is in. -/
theorem C93_command {h : Host} {fs0 : FS} {st : St} (hr : Reach h c.smtDebug (solvers shw which K o g c) fs0 st) (call : Call) (hc : call ∈ st.calls) :
    (c.vampire = true ∧ (∃ t, call.contents = some (.file t) ∧ SmtM.output K o.vampire g = some t) ∧ ∃ exe as os, which c.vampireLoc = some exe ∧ call.argv = exe :: as ∧
      ReadArgs as os (h.show_ call.file) ∧ (os.map (·.1)).Nodup ∧ ("time_limit".toList, shw c.timeout) ∈ os ∧ ("input_syntax".toList, "smtlib2".toList) ∈ os) ∨
    (c.z3 = true ∧ (∃ t, call.contents = some (.file t) ∧ SmtM.output K o.z3 g = some t) ∧ ∃ exe, which c.z3Loc = some exe ∧
      call.argv = [exe, "-T:".toList ++ shw c.timeout, h.show_ call.file]) := by
  obtain ⟨s, t, r, g1, g2, g3, g4, g5, g6⟩ := (C93_called hr).1 call hc
  rcases (C93_solvers s).1 (List.mem_of_getElem? g1) with ⟨h1, exe, h2, h3, h4, h5⟩ | ⟨h1, exe, h2, h3, h4, h5⟩
  · refine .inl ⟨h1, ⟨t, g5, h4 ▸ g2⟩, exe, _, _, h2, ?_, C93_vampire_args shw [.timeLimit c.timeout] defaultArgs _, ?_, ?_, ?_⟩
    · rw [g3, h5]
    · have : ((([.timeLimit c.timeout] : List (VArg τ)) ++ defaultArgs).map (named shw)).map (Prod.fst) =
          ["time_limit".toList, "input_syntax".toList, "show_new".toList, "avatar".toList, "inline_let".toList, "newcnf".toList] := rfl
      rw [this]
      decide +kernel
    · exact List.mem_cons_self
    · exact List.mem_cons_of_mem _ List.mem_cons_self
  · exact .inr ⟨h1, ⟨t, g5, h4 ▸ g2⟩, exe, h2, by rw [g3, h5]⟩

end

/-! ### The hypotheses can be met -/

namespace Ex

/-- `/home/u` and `/tmp` are there, and nothing else. -/
def fs : FS := fun p =>
  if p ∈ [[], ["home".toList], ["home".toList, "u".toList], ["tmp".toList]] then some .dir else none

def host : Host := ⟨["home".toList, "u".toList], ⟨true, ["tmp".toList]⟩, fun p => p.flatMap fun c => '/' :: c⟩

def two : List Solver := [⟨"vampire".toList, some "(check-sat)".toList, fun f => ["v".toList, f]⟩, ⟨"z3".toList, some "(check-sat)".toList, fun f => ["z".toList, f]⟩]

/-- A solver is started on its file. -/
example : ∃ st, Reach host none two fs st ∧ ∃ c ∈ st.calls, c.solver = 1 ∧ c.contents = some (.file "(check-sat)".toList) := by
  obtain ⟨st, hr, c, hc, hi⟩ := C93_starts (h := host) (S := two) (fs0 := fs) (i := 1) (s := two[1]) (t := "(check-sat)".toList) rfl rfl (by decide +kernel) (r := "abc".toList) (by decide +kernel)
  obtain ⟨s, t, r, g1, g2, g3, g4, g5, g6⟩ := (C93_called hr).1 c hc
  rw [hi] at g1
  cases g1
  cases g2
  exact ⟨st, hr, c, hc, hi, g5⟩

/-- With the directory `/home/u/out` the file is in it. -/
example : ∃ st, Reach host (some ⟨true, ["home".toList, "u".toList, "out".toList]⟩) two fs st ∧ ∃ c ∈ st.calls, c.solver = 0 ∧
    ∃ f, c.file = ["home".toList, "u".toList, "out".toList, f] := by
  obtain ⟨st, hr, c, hc, hi⟩ := C93_starts_saved (h := host) (S := two) (fs0 := fs) (p := ⟨true, ["home".toList, "u".toList, "out".toList]⟩) rfl (i := 0) (s := two[0])
    (t := "(check-sat)".toList) rfl rfl (by intro q _ u e; unfold fs at e; split at e <;> cases e) (r := "abc".toList) (by decide +kernel)
  exact ⟨st, hr, c, hc, hi, (C93_kept_partial rfl hr).1 c hc⟩

/-- With the directory `out` no solver is started, although it can be made. -/
example {st : St} (hr : Reach host (some ⟨false, ["out".toList]⟩) two fs st) : st.calls = [] :=
  C93_relative_counterexample rfl (by decide +kernel) (by decide +kernel) hr

end Ex
end Slv
end CV
