/-
Property C89 for Squirrel files: the problems made of them are given to the loader without being written out
(/repo/crates/cryptovampire/src/squirrel/mod.rs:14-47). Operators with a definition become macros of these problems, while their uses become
applications of functions, which the loader does not find.
-/
import Verif.Scope
import Verif.SqTrace
set_option linter.unusedSimpArgs false

namespace CV
namespace Scp
open Prs Sq Txt2

/-- What the problems with pairs need (/repo/crates/cryptovampire/src/squirrel/converters/top_level_converter.rs:80-146): the operators `pair`, `fst` and `snd`. -/
def pairOps : List (Path × OpData) := [(sy "pair", ⟨⟨[], [.message, .message], .message⟩, .other []⟩),
  (sy "fst", ⟨⟨[], [.message], .message⟩, .other []⟩), (sy "snd", ⟨⟨[], [.message], .message⟩, .other []⟩)]

/-- A protocol with an operator `f(x) = x`, and two queries: `f(empty) = empty` (`used`) and `true`. -/
def opDump (used : Bool) : Dump :=
  { trDump exI with
    ops := pairOps ++ [(sy "f", ⟨⟨[], [.message], .message⟩, .concrete [⟨"x", .message⟩] (exVar "x")⟩)]
    query := if used then .app (.fun_ (sy "=")) [.app (.fun_ (sy "f")) [.app (.fun_ (sy "empty")) []], .app (.fun_ (sy "empty")) []]
      else .app (.fun_ (sy "true")) [] }

/-- What is made of the query of `opDump true`. -/
def opQuery : Tm := .quant .all [] (.infx .implies [.app "true" [], .infx .eq [.app "fun_f" [.app "empty" []], .app "empty" []]])

/-- The problem of a dump that makes one. -/
def onlyProblem (D : Dump) : Option (List Stm) :=
  match convDump exAln D with
  | .ok r => r.get 0
  | _ => none

/-- **C89 (operators with a definition).** A Squirrel file whose query uses an operator with a definition is converted, its problem declares the
operator (as a macro) and mentions it (as a function), and is refused by the loader, whatever the order of tables, the fuel and the
options. The same file with another query is accepted. -/
theorem C89_squirrel_operators_counterexample :
    (∃ l, onlyProblem (opDump true) = some l ∧ (∃ ps b o, Stm.mac "fun_f" ps b o ∈ l) ∧ Decl.query opQuery ∈ l.map Stm.decl ∧
      ∀ ord fuel ig sh P, (∀ l, (ord l : List (String × Cache)).Perm l) → load ord fuel ig (env0 sh) (l.map Stm.decl) ≠ .ok P) ∧
    ∃ l, onlyProblem (opDump false) = some l ∧ ∃ P, load id 30 false (env0 true) (l.map Stm.decl) = .ok P := by
  refine ⟨?_, ?_⟩
  · obtain ⟨l, hl⟩ := Option.isSome_iff_exists.1 (show (onlyProblem (opDump true)).isSome = true by decide +kernel)
    have hq : (l.map Stm.decl)[17]? = some (.query opQuery) := by
      have : (onlyProblem (opDump true)).bind (fun l => (l.map Stm.decl)[17]?) = some (.query opQuery) := by with_unfolding_all rfl
      rwa [hl] at this
    have hm : ∃ ps b o, l[4]? = some (Stm.mac "fun_f" ps b o) := by
      have : ∃ ps b o, (onlyProblem (opDump true)).bind (fun l => l[4]?) = some (Stm.mac "fun_f" ps b o) := ⟨_, _, _, by with_unfolding_all rfl⟩
      rwa [hl] at this
    have hb : ∀ p : List Decl → Bool, (onlyProblem (opDump true)).all (fun l => p (l.map Stm.decl)) = true → p (l.map Stm.decl) = true := by
      intro p h
      rw [hl] at h
      exact h
    have hin := List.mem_of_getElem? hq
    refine ⟨l, hl, ?_, hin, fun ord fuel ig sh P hord hP => ?_⟩
    · obtain ⟨ps, b, o, h⟩ := hm
      exact ⟨ps, b, o, List.mem_of_getElem? h⟩
    · have k := C89_declared_partial ord hord fuel ig sh _ P hP [] opQuery (.query hin) ?_
      · have : ("fun_f" ∈ objNames (l.map Stm.decl) ∨ "fun_f" = "init" ∨ "fun_f" ∈ builtinFunctions.map (·.1) ∨
            "fun_f" ∈ ["true", "True", "false", "False", "not"]) :=
          k (.app "fun_f" [.app "empty" []]) (.quant (.infx (.tail _ (List.mem_cons_self ..)) (.infx (List.mem_cons_self ..) .refl)))
        have no := hb (fun l => !decide ("fun_f" ∈ objNames l ∨ "fun_f" = "init" ∨ "fun_f" ∈ builtinFunctions.map (·.1) ∨
            "fun_f" ∈ ["true", "True", "false", "False", "not"])) (by decide +kernel)
        rw [Bool.not_eq_true', decide_eq_false_iff_not] at no
        exact no this
      · intro u hu
        simp only [opQuery, sub_app, sub_infx, sub_quant, List.mem_cons, List.not_mem_nil, or_false, exists_eq_or_imp, exists_eq_left, false_and, exists_false] at hu
        rcases hu with rfl | rfl | rfl | rfl | (rfl | rfl) | rfl
        · trivial
        · exact .inr (.inr (.inr rfl))
        · exact fitsB_sound (hb (fun l => fitsB l "true" 0) (by decide +kernel))
        · exact .inr (.inr (.inr rfl))
        · exact fitsB_sound (hb (fun l => fitsB l "fun_f" 1) (by decide +kernel))
        · exact fitsB_sound (hb (fun l => fitsB l "empty" 0) (by decide +kernel))
        · exact fitsB_sound (hb (fun l => fitsB l "empty" 0) (by decide +kernel))
  · obtain ⟨l, hl⟩ := Option.isSome_iff_exists.1 (show (onlyProblem (opDump false)).isSome = true by decide +kernel)
    refine ⟨l, hl, Out.isOk_iff.1 ?_⟩
    have : (onlyProblem (opDump false)).all (fun l => (load id 30 false (env0 true) (l.map Stm.decl)).isOk) = true := by decide +kernel
    rwa [hl] at this

end Scp
end CV
