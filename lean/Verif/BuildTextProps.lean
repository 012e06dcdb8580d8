import Verif.BuildSyms
import Verif.BuildDeclOk
set_option linter.unusedSimpArgs false
set_option linter.unusedVariables false
set_option linter.unnecessarySeqFocus false
/-
C92: the names of the text written for an accepted file do not clash.
-/
namespace CV
namespace Bld
open Prs SmtM
open Cont (Sy IsIdent LetterOk Idents plainConsts)

section
variable {P : LProblem} {letter : Char → Bool} {l : List Decl} {sh : Bool} {gid : BF → Nat}

/-- All characters are characters of symbols. -/
def CharsOK (n : Txt) : Prop := ∀ c ∈ n, nameChar c = true

theorem CharsOK.append {a b : Txt} (ha : CharsOK a) (hb : CharsOK b) : CharsOK (a ++ b) := fun c hc =>
  (List.mem_append.1 hc).elim (ha c) (hb c)

theorem CharsOK.cons {a : Char} {b : Txt} (ha : nameChar a = true) (hb : CharsOK b) : CharsOK (a :: b) := fun c hc =>
  (List.mem_cons.1 hc).elim (fun h => h ▸ ha) (hb c)

theorem digits_chars (n : Nat) : CharsOK (Nat.toDigits 10 n) := fun c hc =>
  digit_nameChar (Nat.isDigit_of_mem_toDigits (by decide) (by decide) hc)

theorem freeName_chars (n : Nat) {b : Txt} (hb : CharsOK b) : CharsOK (Cont.freeName n b) :=
  .cons (by decide) (.append (digits_chars n) (.cons (by decide) hb))

theorem init_ident (hl : LettersOk letter) : IsIdent letter "init".toList := ident_of_alpha hl (by decide)

theorem empty_ident (hl : LettersOk letter) : IsIdent letter "empty".toList := ident_of_alpha hl (by decide)

theorem ident_of_obj (hl : LettersOk letter) (hi : Idents letter l) {s : String} (hs : s ∈ objNames l) : IsIdent letter s.toList :=
  hi s (List.mem_append_left _ hs)

theorem subBase_chars (P : LProblem) (k : Nat) : CharsOK (subBase P k).toList := by
  simp only [subBase]
  split <;> (unfold CharsOK; decide)

/-- The names are made of characters of symbols. -/
theorem name_chars (hl : LettersOk letter) (hs : SortsOk letter P) (hi : Idents letter l) :
    ∀ {f : BF}, FromFile P l f → CharsOK (syOf P gid f).name := by
  intro f
  induction f with
  | f x =>
    intro hf
    cases x <;> try (show CharsOK (String.toList _); unfold CharsOK; decide)
    case nameToMsg => show CharsOK ("cast$".toList ++ "Message".toList ++ "$name".toList); unfold CharsOK; decide
    case taq k =>
      show CharsOK ((Cont.qName (quantKind P k)).toList ++ '$' :: Nat.toDigits 10 k)
      refine .append ?_ (.cons (by decide) (digits_chars _))
      cases quantKind P k <;> (unfold CharsOK; decide)
    case sym n =>
      show CharsOK ((builtinSy.lookup n).getD (.user n.toList)).name
      rcases lookup_sy n with ⟨s, hm, e⟩ | ⟨hn, e⟩ <;> rw [e]
      · have key : ∀ p ∈ builtinSy, ∀ c ∈ p.2.name, nameChar c = true := by decide
        exact key _ hm
      · exact (ident_ok hl (hi n (hf.resolve_left hn))).2
  | ev x =>
    intro hf
    cases x <;> simp only [FromFile] at hf
    show CharsOK ("eval$".toList ++ _)
    refine .append (by unfold CharsOK; decide) ?_
    rcases hf with rfl | h
    · exact (ident_ok hl (empty_ident hl)).2
    · exact (ident_ok hl (ident_of_obj hl hi h)).2
  | sk g i _ => intro hf; exact freeName_chars _ (by unfold CharsOK; decide)
  | dest g i ih =>
    intro hf
    exact freeName_chars _ (.append (.append (by unfold CharsOK; decide) (ih hf)) (.cons (by decide) (digits_chars _)))
  | «rw» s => intro hf; exact freeName_chars _ (.append (by unfold CharsOK; decide) (sortTxt_ok hl hs s).2)
  | split k => intro hf; exact freeName_chars _ (by unfold CharsOK; decide)
  | sub k s =>
    intro hf
    cases s with
    | none => exact freeName_chars _ (subBase_chars P k)
    | some s => exact .append (sortTxt_ok hl hs s).2 (.cons (by decide) (freeName_chars _ (subBase_chars P k)))

theorem parts_pre_ne {a : Sy} (ha : a.InFile letter l) {x : Txt × Txt} (h : a.parts = some x) : x.1 ≠ [] := by
  cases a <;> simp only [Sy.parts, Option.some.injEq, reduceCtorEq] at h <;> subst h
  case subterm s id base => intro e; simp only at e; subst e; exact ha
  all_goals simp

/-- No name of a file starts with `$`. -/
theorem name_head (hl : LettersOk letter) (hi : Idents letter l) {a : Sy} (ha : a.InFile letter l) : a.name.head? ≠ some '$' ∧ a.name ≠ [] := by
  rcases Cont.sy_cases a with ⟨n, rfl⟩ | hp | ⟨x, hx⟩
  · obtain ⟨s, hs, rfl⟩ := ha
    exact ⟨ident_head_dollar hl (hi s hs), (ident_ok hl (hi s hs)).1⟩
  · have key : ∀ a ∈ plainConsts, a.name.head? ≠ some '$' ∧ a.name ≠ [] := by decide
    exact key a hp
  · rw [Cont.parts_name hx]
    have h1 := parts_pre_ne ha hx
    have h2 := Cont.parts_pre hl.base ha hx
    cases e : x.1 with
    | nil => exact absurd e h1
    | cons c r =>
      refine ⟨fun h => ?_, by simp⟩
      simp only [List.cons_append, List.head?_cons, Option.some.injEq] at h
      rw [e, h] at h2
      simp at h2

/-- The fixed names of symbols that are printed. -/
def printedConsts : List Sy := [.empty, .pred, .lt, .gt, .leq, .happens, .cond, .msg, .exec, .input, .evalMsg, .evalCond]

theorem printed {f : BF} (hf : FromFile P l f) (hk : (symKind f).isFn = true) (h : syOf P gid f ∈ plainConsts) : syOf P gid f ∈ printedConsts := by
  cases f with
  | f x =>
    cases x <;> try (exact absurd hk (by decide))
    all_goals try (revert h; show _ ∈ plainConsts → _ ∈ printedConsts; simp [syOf, fixedSy, plainConsts, printedConsts]; done)
    case sym n =>
      revert h
      show (builtinSy.lookup n).getD (.user n.toList) ∈ plainConsts → (builtinSy.lookup n).getD (.user n.toList) ∈ printedConsts
      rcases lookup_sy n with ⟨s, hm, e⟩ | ⟨hn, e⟩ <;> rw [e]
      · have key : ∀ p ∈ builtinSy, p.2 ∈ plainConsts → p.2 ∈ printedConsts := by decide
        exact key _ hm
      · simp [plainConsts]
  | ev x =>
    cases x <;> simp only [FromFile] at hf
    simp [syOf, fixedSy, plainConsts] at h
  | sub k s => cases s <;> simp [syOf, plainConsts] at h
  | _ => simp [syOf, plainConsts] at h

theorem reserved_words : ∀ r ∈ reserved, r = "distinct".toList ∨ r.head? = some '=' ∨
    String.ofList r ∈ (builtinFunctions.map (·.1)) ++ keywords := by decide +kernel

theorem reserved_dollar : ∀ r ∈ reserved, '$' ∉ r := by decide

/-- **C92, the names of an accepted file do not clash** with the words of the language, with variables or with each other, when they are as in
`NamesClear`. -/
theorem namesOn (hl : LettersOk letter) (hP : P.env = fileEnv (env0 sh) l) (hf : FileOk (env0 sh) l) (hc : NamesClear letter l)
    (U : BF → Prop) (hU : ∀ f, U f → FromFile P l f)
    (hid : ∀ f g, U f → U g → Generated f → Generated g → gid (numbered f) = gid (numbered g) → numbered f = numbered g) :
    NamesOn (symInfo P gid) U := by
  have hs := sortsOk hl hP hf hc.types
  have hin : ∀ f, U f → (syOf P gid f).InFile letter l := fun f h => syOf_inFile hl hs gid (hU f h)
  refine ⟨fun f hu _ => ⟨(name_head hl hc.objs (hin f hu)).2, name_chars hl hs hc.objs (hU f hu)⟩, ?_, ?_, fun f hu _ => (name_head hl hc.objs (hin f hu)).1,
    fun s => sortTxt_ok hl hs s, ?_, fun s t h => sortTxt_inj hl hs h⟩
  · intro f hu hk
    show (syOf P gid f).name ∉ reserved
    intro hr
    have hi := hin f hu
    rcases Cont.sy_cases (syOf P gid f) with ⟨n, e⟩ | hp | ⟨x, hx⟩
    · rw [e] at hr hi
      obtain ⟨s, hs, rfl⟩ := hi
      rcases reserved_words _ hr with h | h | h
      · have h : s = "distinct" := String.toList_inj.1 h
        subst h
        rcases List.mem_append.1 hs with hs | hs
        · exact hc.distinct hs
        · simp only [extraInit] at hs
          split at hs
          · cases hs
          · simp at hs
      · exact (Cont.ident_head hl.base (hc.objs s hs)).2 h
      · refine hf.objs.2 s hs ?_
        have : String.ofList (Sy.user s.toList).name = s := String.ofList_toList
        rw [this] at h
        exact h
    · have key : ∀ a ∈ printedConsts, a.name ∉ reserved := by decide
      exact key _ (printed (hU f hu) hk hp) hr
    · have := reserved_dollar _ hr
      rw [Cont.parts_name hx] at this
      simp at this
  · intro f v hu hk
    show (syOf P gid f).name ≠ vn (symInfo P gid) v
    intro e
    have hne := (sortTxt_ok hl hs v.sort).1
    cases hn : sortTxt P v.sort with
    | nil => exact hne hn
    | cons c r =>
      have hv : vn (symInfo P gid) v = c :: 'X' :: Nat.toDigits 10 v.id := by
        simp [vn, SymInfo.varName, symInfo, hn]
      rw [hv] at e
      have hi := hin f hu
      have hh := (name_head hl hc.objs hi).1
      have hcd : c ≠ '$' := by
        rintro rfl
        rw [e] at hh
        exact hh rfl
      rcases Cont.sy_cases (syOf P gid f) with ⟨n, e'⟩ | hp | ⟨x, hx⟩
      · rw [e'] at e hi
        obtain ⟨s, hsm, rfl⟩ := hi
        rcases sortTxt_cases P v.sort with ⟨m, hm, e1⟩ | ⟨_, e1⟩
        · rcases List.mem_append.1 hsm with hsm | hsm
          · refine hc.vars s hsm ⟨m, ?_, c, ?_, v.id, e⟩
            · rw [← sorts_eq hP]; exact List.mem_map.2 ⟨_, hm, rfl⟩
            · rw [← e1, hn]; rfl
          · simp only [extraInit] at hsm
            split at hsm
            · cases hsm
            · simp only [List.mem_singleton] at hsm
              subst hsm
              have e : "init".toList = c :: 'X' :: Nat.toDigits 10 v.id := e
              have h2 : "init".toList[1]? = some 'X' := by rw [e]; rfl
              exact absurd h2 (by decide)
        · rw [hn] at e1
          exact hcd (List.cons.inj e1).1
      · have key : ∀ a ∈ plainConsts, a.name[1]? ≠ some 'X' := by decide
        exact key _ hp (by rw [e]; rfl)
      · have : '$' ∈ (syOf P gid f).name := by rw [Cont.parts_name hx]; simp
        rw [e] at this
        rcases List.mem_cons.1 this with h | h
        · exact hcd h.symm
        · rcases List.mem_cons.1 h with h | h
          · exact absurd h (by decide)
          · exact Cont.dollar_not_digit _ h
  · intro f g hu hv _ _ e
    refine syOf_inj hl hs (hU f hu) (hU g hv) (hid f g hu hv) ?_
    exact Cont.C59_names_partial letter hl.base (empty_ident hl) sh l hf hc.objs hc.msg hc.cond _ _ (hin f hu) (hin g hv) e

end

/-! ### From the text of a file to its meaning -/

section
open SmtS Gen
variable {D : Type}

/-- **C92.** The text that is written for an accepted file, with the names the code gives to its symbols, can be read back; if it has no model,
the query of the file is true in the executions as in `C84_proved_partial`. Unlike there the names are those of the code: that they do not clash is proved for
the files whose names are as in `NamesClear`. Missing: as in `C84_proved_partial`; that the numbers of `find_free_name` differ is a hypothesis
(`hid`; see C42). That the symbols of the text come from the file and that
its declarations are well formed is C94; that its formulas are closed and their symbols have the right number of arguments (`hax`) is a hypothesis. -/
theorem C92_proved_partial (ord : List (String × Cache) → List (String × Cache)) (hord : ∀ l, (ord l).Perm l) (o : Opt) (ig sh : Bool)
    (fuel : Nat) (l : List Prs.Decl) (P : LProblem) (B : Gen.Prob BF) (hw : FileWs (env0 sh) l) (hc : FileClean (env0 sh) l)
    (h : load ord fuel ig (env0 sh) l = .ok P) (hB : toProb o P = some B) (ht : TblPlain P.tbl) (hf : UserForms P) (hleg : o.legacy = false)
    (M : Str BF D) (I : Prs.Sem D) (points : List D) (undef first : D) (hx : FileExec o (env0 sh) l P M I points undef first)
    (ha : ∀ c ∈ P.crypto.zipIdx, Says o (env0 sh) l P B M I points c)
    (hv : ∀ t ∈ assertionsOf l, I.M.truth (den P.env.toEnv I .ev [] t)) (g : GenFile BF) (hg : B.file = some g)
    (letter : Char → Bool) (hl : LettersOk letter) (hn : NamesClear letter l) (gid : BF → Nat)
    (hid : ∀ f ∈ g.syms, ∀ f' ∈ g.syms, Generated f → Generated f' → gid (numbered f) = gid (numbered f') → numbered f = numbered f')
    (opts : Opts) (hev : opts.evaluated = true → o.symbolic = false) (hax : ∀ a ∈ g.assertions, AxOK (symInfo P gid) opts.evaluated a) (hstd : Std (symInfo P gid) M) (hno : Noop (symInfo P gid) opts.evaluated M)
    (hdecl : ∀ d ∈ g.declarations, declSem (symInfo P gid) M d) :
    ∃ text es t, output (symInfo P gid) opts g = some text ∧ SmtS.read text = some es ∧ queriesOf l = [t] ∧
      ((∀ (D : Type) (I : Interp D), ¬ ∀ e ∈ es, cmdSem I e) → I.M.truth (den P.env.toEnv I .ev [] t)) := by
  have hL := load_loaded hord (env0_base sh) h
  have hN := namesOn (gid := gid) hl hL.env hL.ok hn (· ∈ g.syms) (C94_symbols_partial ord hord o ig sh fuel l P B hw hc h hB g hg) fun f f' hf hf' => hid f hf f' hf'
  obtain ⟨code, hcode⟩ := exists_injective_nat BF
  have hK := names_patch hN hcode
  have := C84_proved_partial ord hord o ig sh fuel l P B hw hc h hB ht hf hleg M I points undef first hx ha hv g hg _ hK opts
    (FileOK.mk hax (C94_declarations ord hord o ig sh fuel l P B h hB g hg gid _ hev)).rename hstd.rename hno fun d hd => declSem_rename (hdecl d hd)
  rwa [output_rename (symInfo P gid) (patch (symInfo P gid) (· ∈ g.syms) code) opts g fun s hs => by simp [patch, hs]] at this

end
end Bld
end CV
