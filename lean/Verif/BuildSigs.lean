import Verif.BuildSyms
set_option linter.unusedSimpArgs false
set_option linter.unusedVariables false
/-
C94: the signatures that are declared for the symbols made while the file is written.
-/
namespace CV
namespace Bld
open Dep Ev Cry Prs Gsy

/-- SPECIFICATION. The subterm predicates of an assumption, each with the search it stands for. -/
def subsOf (K : Pbl BF) : Gen.Ass BF → List (Cry.Sub BF)
  | .ufCma U _ => [U.main K, U.key K]
  | .eufCma U _ => [U.main, U.key K]
  | .intCtxt X => [X.main, X.key K, X.rand K]
  | .nonce sym => [nonceSub sym]
  | _ => []

section
variable {o : Opt} {P : LProblem} {B : Gen.Prob BF}

theorem subSym_sig {k : Nat} {s : Srt} {f : BF} (hv : o.vampire = false) (h : subSym o P k (some s) = some f) :
    allInsort P f = some [subSort P k, s] ∧ outSort P f = some .bool := by
  unfold subSym at h
  rw [hv] at h
  simp only [Bool.false_eq_true, if_false, Option.bind_some] at h
  split at h
  · cases h; exact ⟨rfl, rfl⟩
  · cases h

/-- The sort a predicate of an assumption looks for. -/
def looksFor : Crypto → Nat → Srt
  | .nonce, _ => .name
  | _, 0 => .message
  | _, _ => .name

theorem subSort_at {k j : Nat} {y : Crypto} (h : P.crypto[k]? = some y) (hj : j < 3) : subSort P (3 * k + j) = looksFor y j := by
  unfold subSort
  rw [show (3 * k + j) / 3 = k by omega, show (3 * k + j) % 3 = j by omega, h]
  cases y <;> (match j, hj with
    | 0, _ => rfl
    | 1, _ => rfl
    | 2, _ => rfl)

/-- **C94.** The predicates declared for an assumption, one for each sort, take what the search of the assumption looks for and an element of this sort. -/
theorem C94_predicates (hv : o.vampire = false) (hB : toProb o P = some B) (a : Gen.Ass BF) (ha : a ∈ B.crypto) (S : Cry.Sub BF) (hS : S ∈ subsOf B.K a)
    (s : Srt) (f : BF) (hf : S.sym (some s) = some f) : allInsort P f = some [S.A.sort, s] ∧ outSort P f = some .bool := by
  obtain ⟨G, hG, rfl⟩ := Option.map_eq_some_iff.1 hB
  obtain ⟨⟨y, k⟩, hc, rfl⟩ := List.mem_map.1 ha
  have hk : P.crypto[k]? = some y := List.mem_zipIdx_iff_getElem?.1 hc
  have h0 := subSort_at hk (j := 0) (by decide)
  have h1 := subSort_at hk (j := 1) (by decide)
  have h2 := subSort_at hk (j := 2) (by decide)
  cases y <;> simp only [toAss, subsOf, List.mem_cons, List.not_mem_nil, or_false] at hS h0 h1 h2
  all_goals
    (rcases hS with rfl | rfl | rfl <;> simp only [Uf.main, Uf.key, Euf.main, Euf.key, Ctx.main, Ctx.key, Ctx.rand, nonceSub] at hf ⊢ <;>
        obtain ⟨e1, e2⟩ := subSym_sig hv hf <;> refine ⟨?_, e2⟩ <;> rw [e1] <;> first | (rw [h1]; rfl) | (rw [h2]; rfl) | (rw [show 3 * k = 3 * k + 0 from rfl, h0]; rfl))

/-- **C94.** Destructors take a value of the sort of their constructor and give the sort of one of its arguments: reading the `i`-th argument of an
application is well sorted. -/
theorem C94_destructors (f : BF) (ss : List Srt) (s t : Srt) (i : Nat) (h1 : insort P f = some ss) (h2 : outSort P f = some s) (ht : ss[i]? = some t) :
    allInsort P (.dest f i) = some [s] ∧ outSort P (.dest f i) = some t := by
  constructor
  · simp [allInsort, h2]
  · simp [outSort, h1, ht]

/-- **C94.** The Skolem functions of a `find` take its parameters and give elements of the sorts of its variables. -/
theorem C94_skolems (k : Nat) (bs fr : List Var) (c l r : Fm PF) (h : P.tbl[k]? = some (.find bs fr c l r)) (i : Nat) (v : Var) (hv : bs[i]? = some v) :
    allInsort P (.sk (.f (.taq k)) i) = some (fr.map Var.sort) ∧ outSort P (.sk (.f (.taq k)) i) = some v.sort := by
  constructor
  · simp [allInsort, insort, sigOf, h]
  · simp [outSort, h, hv]

end

/-! ### Non-vacuity -/

def sigEx : LProblem where
  env := { env0 true with functions := builtinFunctions ++ [("f", .func ⟨.sym "f", .fixed [.message, .condition] .message, false⟩)] }
  tbl := [.find [⟨3, .user 7⟩] [⟨1, .step⟩] (.app .taTrue []) (.app (.sym "empty") []) (.app (.sym "empty") [])]
  steps := []
  cells := []
  orders := []
  assertions := []
  lemmas := []
  query := .app .tru []
  crypto := [.memoryCell, .nonce]

def sigOpt : Opt := ⟨false, true, false, false, true, true, 100⟩

example : ∃ B, toProb sigOpt sigEx = some B ∧ ∃ a ∈ B.crypto, ∃ S ∈ subsOf B.K a, S.sym (some .message) = some (.sub 3 (some .message)) ∧ S.A.sort = .name := by
  have h : ((toProb sigOpt sigEx).any fun B => true) = true := by decide +kernel
  cases hB : toProb sigOpt sigEx with
  | none => rw [hB] at h; cases h
  | some B =>
    obtain ⟨G, hG, rfl⟩ := Option.map_eq_some_iff.1 hB
    exact ⟨_, rfl, .nonce (subSym sigOpt sigEx 3), List.mem_cons_of_mem _ List.mem_cons_self, _, List.mem_cons_self, by decide +kernel, rfl⟩

example : allInsort sigEx (.dest (.f (.sym "f")) 1) = some [.message] ∧ outSort sigEx (.dest (.f (.sym "f")) 1) = some .condition :=
  C94_destructors _ [.message, .condition] .message .condition 1 (by decide +kernel) (by decide +kernel) rfl

example : allInsort sigEx (.sk (.f (.taq 0)) 0) = some [.step] ∧ outSort sigEx (.sk (.f (.taq 0)) 0) = some (.user 7) :=
  C94_skolems (P := sigEx) 0 [⟨3, .user 7⟩] [⟨1, .step⟩] _ _ _ rfl 0 ⟨3, .user 7⟩ rfl

end Bld
end CV
