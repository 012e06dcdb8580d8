import Verif.BuildUsed
import Verif.BuildTextProps
import Verif.BuildEx
set_option linter.unusedSimpArgs false
set_option linter.unusedVariables false
set_option linter.unnecessarySeqFocus false
/-
Non-vacuity of C84 and C92: the file and the execution of `BuildEx` meet all the hypotheses of `C92_proved_partial`, and so those of `C84_proved_partial`.
-/
namespace CV
namespace Bld
namespace Ex
open Prs SmtM SmtS

/-! ### Checks -/

def headB : Fm BF → Bool
  | .var _ => false
  | .quant .. => true
  | .app f _ => match symKind f with
    | .tru | .fls | .and | .or | .eq | .not | .imp => true
    | .fn | .evaluate | .vampSub | .ite => false

def arityB (n : Nat) : SKind → Bool
  | .tru | .fls => n == 0
  | .not => n == 1
  | .imp | .vampSub => n == 2
  | .ite => n == 3
  | .evaluate => n == 1
  | .fn | .eq | .and | .or => true

mutual
def okB : List Var → Fm BF → Bool
  | bd, .var v => bd.find? (fun w => w.id == v.id) == some v
  | bd, .quant _ vs b => (!vs.isEmpty || headB b) && okB (vs.reverse ++ bd) b
  | bd, .app f args => arityB args.length (symKind f) && okBs bd args
def okBs : List Var → List (Fm BF) → Bool
  | _, [] => true
  | bd, a :: as => okB bd a && okBs bd as
end

section
variable {P : LProblem} {gid : BF → Nat}

theorem headB_sound {b : Fm BF} (h : headB b = true) : boolHead (symInfo P gid) b := by
  cases b with
  | var v => cases h
  | quant q vs b => trivial
  | app f args =>
    simp only [headB] at h
    simp only [boolHead]
    split <;> rename_i hk <;> have hk : symKind f = _ := hk <;> rw [hk] at h <;> trivial

theorem arityB_sound {n : Nat} {k : SKind} (h : arityB n k = true) : arityOK true n k := by
  cases k <;> first
    | exact trivial
    | exact fun _ => eq_of_beq h
    | exact eq_of_beq h

mutual
theorem okB_sound : ∀ {bd : List Var} {f : Fm BF}, okB bd f = true → FmOK (symInfo P gid) true bd f
  | bd, .var v, h => eq_of_beq h
  | bd, .quant q vs b, h => by
    simp only [okB, Bool.and_eq_true, Bool.or_eq_true] at h
    refine ⟨fun hv => ?_, okB_sound h.2⟩
    rcases h.1 with h1 | h1
    · subst hv; cases h1
    · exact headB_sound h1
  | bd, .app f args, h => by
    simp only [okB, Bool.and_eq_true] at h
    exact ⟨arityB_sound h.1, okBs_sound h.2⟩
theorem okBs_sound : ∀ {bd : List Var} {l : List (Fm BF)}, okBs bd l = true → FmOKs (symInfo P gid) true bd l
  | _, [], _ => trivial
  | bd, a :: as, h => by
    simp only [okBs, Bool.and_eq_true] at h
    exact ⟨okB_sound h.1, okBs_sound h.2⟩
end

def axB : Ax BF → Bool
  | .comment s => !s.contains '\n'
  | .base f | .theory f | .ground _ f | .query f => okB [] f
  | .rewrite k vs pre post => (match k with
    | .bool => true
    | .other f => (symKind f).isFn) && okB vs.reverse pre && okB vs.reverse post

theorem axB_sound {a : Ax BF} (h : axB a = true) : AxOK (symInfo P gid) true a := by
  cases a with
  | comment s =>
    show '\n' ∉ s
    simpa [axB] using h
  | base f => exact okB_sound h
  | theory f => exact okB_sound h
  | ground s f => exact okB_sound h
  | query f => exact okB_sound h
  | rewrite k vs pre post =>
    simp only [axB, Bool.and_eq_true] at h
    refine ⟨?_, okB_sound h.1.2, okB_sound h.2⟩
    cases k with
    | bool => trivial
    | other f => exact h.1.1

/-- The signatures of the symbols with values among the points. -/
def stepB : BF → List Srt → Bool
  | .f (.sym n), a => (n == "pred" && a == [.step]) || (n == "init" && a == []) || (n == "s" && a == [.user 6])
  | _, _ => false

/-- Declarations that are in order and true in the execution. -/
def declB (P : LProblem) (ds : List (SmtM.Decl BF)) : SmtM.Decl BF → Bool
  | .sort _ => true
  | .alias a b => !(a == .step) && !(b == .step)
  | .datatypes l => l.isEmpty
  | .subterm .. => false
  | .free f => (symKind f).isFn && (match allInsort P f, outSort P f with
    | some a, some s => (!(s == .step) || stepB f a) && (!(symKind f == .evaluate) || (match a with
      | [a] => ds.any fun | .alias x y => (x == a && y == s) || (x == s && y == a) | _ => false
      | _ => false))
    | _, _ => false)

theorem typed_len {dom : Srt → V → Prop} : ∀ {ss : List Srt} {as : List V}, Typed dom ss as → as.length = ss.length
  | [], [], _ => rfl
  | _ :: _, _ :: _, h => by simp [typed_len h.2]

theorem declB_sound {ds : List (SmtM.Decl BF)} {d : SmtM.Decl BF} (h : declB P ds d = true) :
    DeclOK (symInfo P gid) true ds d ∧ declSem (symInfo P gid) M d := by
  cases d with
  | sort s =>
    refine ⟨trivial, .undef, ?_⟩
    cases s <;> first | exact trivial | exact .inr rfl
  | «alias» a b =>
    refine ⟨trivial, fun d => ?_⟩
    simp only [declB, Bool.and_eq_true, Bool.not_eq_true', beq_eq_false_iff_ne] at h
    have key : ∀ s : Srt, s ≠ .step → M.dom s d := by
      intro s hs
      cases s <;> first | exact trivial | exact (hs rfl).elim
    exact ⟨fun _ => key a h.1, fun _ => key b h.2⟩
  | datatypes l =>
    obtain rfl := List.isEmpty_iff.1 h
    exact ⟨nofun, nofun⟩
  | subterm => cases h
  | free f =>
    simp only [declB, Bool.and_eq_true] at h
    obtain ⟨h1, h2⟩ := h
    split at h2
    · next a s ha hs =>
      simp only [Bool.and_eq_true, Bool.or_eq_true, Bool.not_eq_true', beq_eq_false_iff_ne] at h2
      have hi : (symInfo P gid).insort f = some a := ha
      have ho : (symInfo P gid).outsort f = some s := by
        show (allInsort P f).bind _ = _
        rw [ha]; exact hs
      refine ⟨⟨h1, ⟨a, hi⟩, ⟨s, ho⟩, fun _ hk => ?_⟩, ?_⟩
      · rcases h2.2 with h3 | h3
        · exact (h3 hk).elim
        · split at h3
          · next x =>
            obtain ⟨d, hd, hx⟩ := List.any_eq_true.1 h3
            split at hx
            · next y z =>
              simp only [Bool.or_eq_true, Bool.and_eq_true, beq_iff_eq] at hx
              refine ⟨x, s, hi, ho, ?_⟩
              rcases hx with ⟨rfl, rfl⟩ | ⟨rfl, rfl⟩
              · exact .inl hd
              · exact .inr hd
            · cases hx
          · cases h3
      · intro ss t hss ht as has
        obtain rfl := Option.some.inj (hi.symm.trans hss)
        obtain rfl := Option.some.inj (ho.symm.trans ht)
        have hlen := typed_len has
        rcases h2.1 with h3 | h3
        · show dom s _
          cases s <;> first | exact trivial | exact (h3 rfl).elim
        · unfold stepB at h3
          split at h3
          · next n _ =>
            simp only [Bool.or_eq_true, Bool.and_eq_true, beq_iff_eq] at h3
            have hd : ∀ d, (d ∈ pts ∨ d = .undef) → M.dom s d := by
              intro d hd
              cases s <;> first | exact trivial | exact hd
            apply hd
            rcases h3 with (⟨rfl, rfl⟩ | ⟨rfl, rfl⟩) | ⟨rfl, rfl⟩
            · match as, hlen with
              | [d], _ => exact pred_val d
            · match as, hlen with
              | [], _ => exact .inl (by simp [M, fn, pf, sym])
            · match as, hlen with
              | [v], _ =>
                show sym "s" [v] ∈ pts ∨ sym "s" [v] = .undef
                rcases s_val v with ⟨-, h⟩ | ⟨-, h⟩ | ⟨-, -, h⟩ <;> rw [h] <;> simp
          · cases h3
    · cases h2

theorem std : Std (symInfo P gid) M := by
  have key : ∀ f k, symKind f = k → k ≠ .fn → k ≠ .vampSub → ∃ x, f = .f x := by
    intro f k h1 h2 h3
    cases f with
    | f x => exact ⟨x, rfl⟩
    | sub k s => cases s <;> simp [symKind] at h1 <;> subst h1 <;> contradiction
    | _ => simp [symKind] at h1; exact absurd h1.symm h2
  constructor <;> intro f hf <;> have hf : symKind f = _ := hf <;> obtain ⟨x, rfl⟩ := key f _ hf (by simp) (by simp) <;>
    cases x <;> simp [symKind] at hf
  · rfl
  · rfl
  · intro l; rfl
  · intro l; rfl
  · intro l
    show pf .eq l = _
    unfold pf
    split <;> simp_all [M]
  · intro a; rfl
  · intro a b; rfl
  · intro c a b
    show pf .ite [c, a, b] = _
    simp only [pf]
    congr

theorem noop : Noop (symInfo P gid) true M := by
  intro _ f hf d
  have hf : symKind f = _ := hf
  cases f with
  | f x => cases x <;> simp [symKind] at hf <;> rfl
  | sub k s => cases s <;> simp [symKind] at hf
  | _ => simp [symKind] at hf

/-- The symbols are those of the file, and none is generated. -/
def symB : BF → Bool
  | .f (.sym n) => builtinSy.any (fun p => p.1 == n) || (objNames file ++ extraInit file).contains n
  | .f _ => true
  | _ => false

theorem symB_sound {f : BF} (h : symB f = true) : FromFile P file f ∧ ¬ Generated f := by
  unfold symB at h
  split at h
  · next n =>
    refine ⟨?_, id⟩
    simp only [Bool.or_eq_true, List.any_eq_true, beq_iff_eq, List.contains_iff_mem] at h
    rcases h with ⟨p, hp, rfl⟩ | h
    · exact .inl (List.mem_map.2 ⟨p, hp, rfl⟩)
    · exact .inr h
  · next x hx =>
    refine ⟨?_, id⟩
    cases x <;> first | exact trivial | exact (hx _ rfl).elim
  · cases h

end

def textB : Out LProblem → Bool
  | .ok P => ((toProb opt P).bind fun B => B.file).any fun g =>
      g.assertions.all axB && g.declarations.all (declB P g.declarations) && g.syms.all symB
  | _ => false

theorem text_checked : textB (load id 10 false (env0 true) file) = true := by decide +kernel

/-! ### The names of the file -/

theorem letters : LettersOk Cont.asciiLetter where
  base := ⟨rfl, rfl, rfl⟩
  delim c h := by
    have key : ∀ x : Char, x.isAlpha = false → c ≠ x := by
      rintro x hx rfl
      rw [show c.isAlpha = true from h] at hx
      cases hx
    simp [nameChar, ws, key ' ' rfl, key '\t' rfl, key '\n' rfl, key '\r' rfl, key '(' rfl, key ')' rfl, key ';' rfl, key '|' rfl, key '"' rfl]
  ascii c h := h

theorem clear : NamesClear Cont.asciiLetter file where
  objs := by
    intro s hs
    have : objNames file ++ extraInit file = ["f", "g", "c", "s", "init"] := rfl
    rw [this] at hs
    revert s
    simp only [List.forall_mem_cons, List.not_mem_nil, false_implies, implies_true, and_true]
    refine ⟨?_, ?_, ?_, ?_, ?_⟩ <;> simp [Cont.IsIdent, Cont.asciiLetter]
  types := by
    intro s hs
    have : typeNames file = ["Idx"] := rfl
    rw [this, List.mem_singleton] at hs
    subst hs
    simp [Cont.IsIdent, Cont.asciiLetter]
  msg := by decide
  cond := by decide
  distinct := by decide
  vars := by
    rintro s hs ⟨t, -, c, -, k, e⟩
    have key : ∀ s ∈ objNames file, s.toList[1]? ≠ some 'X' := by decide
    exact key s hs (by rw [e]; rfl)

def opts : Opts := ⟨false, false, false, true, true⟩

/-- The query is not true in the execution: `s(i)` happens for two indices only. -/
theorem query_false : ¬ I.M.truth (den FE.toEnv I .ev [] (.quant .all [("i", "Idx")] (.app "happens" [.app "s" [.cvar "i"]]))) := by
  intro h
  have h : ∀ d : V, True → (sym "s" [d] ∈ pts) := h
  have := h .undef trivial
  rcases s_val .undef with ⟨h, -⟩ | ⟨h, -⟩ | ⟨-, -, e⟩
  · cases h
  · cases h
  · rw [e] at this
    simp at this

/-- All the hypotheses of `C92_proved_partial` hold of the file and the execution: the text written for it is read back. The query does not hold in this
execution, so that the text has a model. -/
example : ∃ P g, load id 10 false (env0 true) file = .ok P ∧
    ∃ text es, output (symInfo P fun _ => 0) opts g = some text ∧ SmtS.read text = some es ∧
      ∃ (D : Type) (I : Interp D), ∀ e ∈ es, cmdSem I e := by
  obtain ⟨P, B, g, h1, h2, h3, h4, h5, h6, h7⟩ := loads
  have hP : P.env = FE := (load_loaded (fun _ => List.Perm.refl _) (env0_base _) h1).env
  have hc := text_checked
  simp only [h1, textB, h6, Option.bind_some, h7, Option.any_some, Bool.and_eq_true] at hc
  obtain ⟨⟨c1, c2⟩, c3⟩ := hc
  suffices h : ∃ text es t, output (symInfo P fun _ => 0) opts g = some text ∧ SmtS.read text = some es ∧ queriesOf file = [t] ∧
      ((∀ (D : Type) (I : Interp D), ¬ ∀ e ∈ es, cmdSem I e) → I.M.truth (den P.env.toEnv I .ev [] t)) by
    obtain ⟨text, es, t, e1, e2, e3, e4⟩ := h
    refine ⟨P, g, h1, text, es, e1, e2, ?_⟩
    cases e3
    by_contra hn
    refine query_false (hP ▸ e4 fun D J hJ => hn ⟨D, J, hJ⟩)
  refine C92_proved_partial id (fun _ => List.Perm.refl _) opt false true 10 file P B file_ws file_clean h1 h6 (by rw [h2]; simp [TblPlain]) h4 rfl
    M I pts .undef (.pt 0 []) (exec hP h2) ?_ ?_ g h7 Cont.asciiLetter letters clear _
    (fun f hf _ _ hg => ((symB_sound (P := P) (List.all_eq_true.1 c3 f hf)).2 hg).elim) opts
    (fun _ => rfl) (fun a ha => axB_sound (List.all_eq_true.1 c1 a ha)) std noop
    (fun d hd => (declB_sound (List.all_eq_true.1 c2 d hd)).2)
  · rw [h3]
    intro c hc
    simp only [List.zipIdx_cons, List.zipIdx_nil, List.mem_cons, List.not_mem_nil, or_false] at hc
    rcases hc with rfl | rfl
    · exact ⟨h5, hP ▸ cells⟩
    · show UnfoldSays (env0 true) file P.env I pts true false
      rw [hP]
      exact unfolds
  · intro t ht
    have : assertionsOf file = [.app "happens" [.cvar "init"]] := rfl
    rw [this, List.mem_singleton] at ht
    subst ht
    rw [hP]
    show V.pt 0 [] ∈ pts
    simp

/-- `C94_symbols_partial`, `C94_declarations` and `C94_used_declared_partial` apply to the file, in a realm where functions are constructors and messages are evaluated: among the symbols of the text are a function
of the file, its evaluation, a destructor and an equality of bitstrings. -/
def opt2 : Opt := ⟨true, false, false, false, true, true, 100⟩

def symsB : Out LProblem → Bool
  | .ok P => ((toProb opt2 P).bind fun B => B.file).any fun g =>
      [BF.f (.sym "f"), .ev (.sym "f"), .dest (.f (.sym "f")) 0, .rw .bitstring].all g.syms.contains
  | _ => false

theorem syms_checked : symsB (load id 10 false (env0 true) file) = true := by decide +kernel

example : ∃ P B g, load id 10 false (env0 true) file = .ok P ∧ toProb opt2 P = some B ∧ B.file = some g ∧
    (∀ x ∈ [BF.f (.sym "f"), .ev (.sym "f"), .dest (.f (.sym "f")) 0, .rw .bitstring], x ∈ g.syms) ∧
    (∀ d ∈ g.declarations, SmtM.DeclOK (symInfo P fun _ => 0) false g.declarations d) ∧
    (∀ a ∈ g.assertions, ∀ f ∈ SmtM.axSyms a, isBuiltin f = true ∨ f ∈ g.declarations.flatMap Gen.syms) ∧ ∀ f ∈ g.syms, FromFile P file f := by
  have h := syms_checked
  cases e : load id 10 false (env0 true) file with
  | ok P =>
    rw [e] at h
    simp only [symsB] at h
    cases hB : toProb opt2 P with
    | none => rw [hB] at h; cases h
    | some B =>
    rw [hB, Option.bind_some] at h
    cases hg : B.file with
    | none => rw [hg] at h; cases h
    | some g =>
    rw [hg, Option.any_some] at h
    refine ⟨P, B, g, rfl, hB, hg, fun x hx => by simpa using List.all_eq_true.1 h x hx,
      C94_declarations id (fun _ => List.Perm.refl _) opt2 false true 10 file P B e hB g hg _ false nofun,
      C94_used_declared_partial id (fun _ => List.Perm.refl _) opt2 false true 10 file P B file_ws file_clean e hB g hg rfl rfl rfl, ?_⟩
    exact C94_symbols_partial id (fun _ => List.Perm.refl _) opt2 false true 10 file P B file_ws file_clean e hB g hg
  | _ => rw [e] at h; cases h

end Ex
end Bld
end CV
