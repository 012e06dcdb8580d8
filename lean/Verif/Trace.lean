import Verif.Protocol
import Verif.Semantics
/-
SPECIFICATION side: what an execution of a protocol is, and the reading of the logical symbols.
Nothing here models code.
-/
namespace CV
variable {D : Type}
open SFm

theorem Str.ofProp_inj {F : Type} (M : Str F D) {p q : Prop} : M.ofProp p = M.ofProp q ↔ (p ↔ q) := by
  constructor
  · intro h; rw [← M.truth_ofProp p, h, M.truth_ofProp]
  · intro h; rw [propext h]

/-- The boolean symbols have their usual meaning. -/
structure Logic (M : Str Sym D) : Prop where
  tru : M.fn (.bool .tru) [] = M.ofProp True
  fls : M.fn (.bool .fls) [] = M.ofProp False
  and : ∀ l, M.fn (.bool .and) l = M.ofProp (∀ a ∈ l, M.truth a)
  or : ∀ l, M.fn (.bool .or) l = M.ofProp (∃ a ∈ l, M.truth a)
  not : ∀ a, M.fn (.bool .not) [a] = M.ofProp (¬ M.truth a)
  imp : ∀ a b, M.fn (.bool .imp) [a, b] = M.ofProp (M.truth a → M.truth b)
  eq : ∀ a b, M.fn (.bool .eq) [a, b] = M.ofProp (a = b)

section
variable {M : Str Sym D} {ρ : Valn D}
open Fm

theorem Logic.holds_tru (hL : Logic M) : holds M ρ SFm.tru := by
  simp [holds, SFm.tru, eval, evals, hL.tru, M.truth_ofProp]
theorem Logic.holds_ands (hL : Logic M) {l : List SFm} :
    holds M ρ (ands l) ↔ ∀ a ∈ l, holds M ρ a := by
  simp [holds, ands, eval, evals_eq, hL.and, M.truth_ofProp]
theorem Logic.holds_ors (hL : Logic M) {l : List SFm} :
    holds M ρ (ors l) ↔ ∃ a ∈ l, holds M ρ a := by
  simp only [holds, ors, eval, evals_eq, hL.or, M.truth_ofProp, List.mem_map]
  constructor
  · rintro ⟨_, ⟨a, ha, rfl⟩, h⟩; exact ⟨a, ha, h⟩
  · rintro ⟨a, ha, h⟩; exact ⟨_, ⟨a, ha, rfl⟩, h⟩
theorem Logic.holds_not (hL : Logic M) {a : SFm} : holds M ρ (mnot a) ↔ ¬ holds M ρ a := by
  simp [holds, mnot, eval, evals, hL.not, M.truth_ofProp]
theorem Logic.holds_imp (hL : Logic M) {a b : SFm} :
    holds M ρ (SFm.imp a b) ↔ (holds M ρ a → holds M ρ b) := by
  simp [holds, SFm.imp, eval, evals, hL.imp, M.truth_ofProp]
theorem Logic.holds_meq (hL : Logic M) {a b : SFm} :
    holds M ρ (meq a b) ↔ eval M ρ a = eval M ρ b := by
  simp [holds, meq, eval, evals, hL.eq, M.truth_ofProp]
theorem holds_forall {vs : List Var} {b : SFm} :
    holds M ρ (mkForall vs b) ↔ quantVal M .all vs (fun ρ' => holds M ρ' b) ρ := by
  unfold mkForall
  cases vs with
  | nil => simp [quantVal]
  | cons v vs => simp [holds, eval, M.truth_ofProp]
theorem holds_exists {vs : List Var} {b : SFm} :
    holds M ρ (mkExists vs b) ↔ quantVal M .ex vs (fun ρ' => holds M ρ' b) ρ := by
  unfold mkExists
  cases vs with
  | nil => simp [quantVal]
  | cons v vs => simp [holds, eval, M.truth_ofProp]
theorem holds_quant {q : QKind} {vs : List Var} {b : SFm} :
    holds M ρ (.quant q vs b) ↔ quantVal M q vs (fun ρ' => holds M ρ' b) ρ := by
  simp [holds, eval, M.truth_ofProp]
end

/-- A tuple of values of the sorts of `vs`. -/
def InDoms (M : Str Sym D) : List Var → List D → Prop
  | [], [] => True
  | v :: vs, d :: ds => M.dom v.sort d ∧ InDoms M vs ds
  | _, _ => False

/-- An execution: a non-empty finite sequence of distinct time points starting at init, plus one
undefined time point; `happens`, the orders and `pred` have their meaning in the sequence. -/
structure IsTrace (M : Str Sym D) (points : List D) (undef first : D) : Prop where
  nodup : points.Nodup
  undef_not : undef ∉ points
  head : points[0]? = some first
  dom_step : ∀ d, M.dom .step d ↔ d ∈ points ∨ d = undef
  happens : ∀ d, M.fn .happens [d] = M.ofProp (d ∈ points)
  leq : ∀ a b, M.fn .leq [a, b] =
    M.ofProp (∃ i j : Nat, i ≤ j ∧ points[i]? = some a ∧ points[j]? = some b)
  lt : ∀ a b, M.fn .lt [a, b] =
    M.ofProp (∃ i j : Nat, i < j ∧ points[i]? = some a ∧ points[j]? = some b)
  pred_succ : ∀ (i : Nat) (a b : D), points[i]? = some a → points[i + 1]? = some b →
    M.fn .pred [b] = a
  pred_first : M.fn .pred [first] = undef
  pred_undef : M.fn .pred [undef] = undef

/-- The time points of an execution of a protocol are pairwise different instances of its steps. -/
structure IsRun (M : Str Sym D) (p : Protocol) (points : List D) (undef first : D) : Prop
    extends IsTrace M points undef first where
  init : ∀ i, p.init = some i → i.vars = [] ∧ M.fn (.step i.fid) [] = first
  inst : ∀ s ∈ p.steps, ∀ as, InDoms M s.vars as →
    M.fn (.step s.fid) as ∈ points ∨ M.fn (.step s.fid) as = undef
  inj : ∀ s ∈ p.steps, ∀ s' ∈ p.steps, ∀ as bs, InDoms M s.vars as → InDoms M s'.vars bs →
    M.fn (.step s.fid) as ∈ points → M.fn (.step s.fid) as = M.fn (.step s'.fid) bs →
    s.fid = s'.fid ∧ as = bs
  surj : ∀ d ∈ points, ∃ s ∈ p.steps, ∃ as, InDoms M s.vars as ∧ M.fn (.step s.fid) as = d

end CV

namespace CV
variable {D : Type}
open Fm

/-- `ρ[vs := ds]`. -/
def Valn.sets (ρ : Valn D) : List Var → List D → Valn D
  | v :: vs, d :: ds => (ρ.set v.id d).sets vs ds
  | _, _ => ρ

theorem Valn.sets_notin (vs : List Var) : ∀ (ρ : Valn D) (ds : List D) (i : Nat),
    i ∉ vs.map Var.id → ρ.sets vs ds i = ρ i := by
  induction vs with
  | nil => intro ρ ds i _; cases ds <;> rfl
  | cons v vs ih =>
    intro ρ ds i hi
    simp only [List.map_cons, List.mem_cons, not_or] at hi
    cases ds with
    | nil => rfl
    | cons d ds => simp only [Valn.sets]; rw [ih _ _ _ hi.2, Valn.set_ne _ _ hi.1]

theorem InDoms.length {M : Str Sym D} : ∀ {vs : List Var} {ds : List D}, InDoms M vs ds →
    vs.length = ds.length
  | [], [], _ => rfl
  | v :: vs, d :: ds, h => by simp [InDoms.length h.2]
  | [], d :: ds, h => h.elim
  | v :: vs, [], h => h.elim

/-- The bound variables read back the values they were given. -/
theorem Valn.sets_map (vs : List Var) : ∀ (ρ : Valn D) (ds : List D), (vs.map Var.id).Nodup →
    vs.length = ds.length → vs.map (fun v => ρ.sets vs ds v.id) = ds := by
  induction vs with
  | nil => intro ρ ds _ h; cases ds <;> simp_all
  | cons v vs ih =>
    intro ρ ds hn hl
    cases ds with
    | nil => simp at hl
    | cons d ds =>
      simp only [List.map_cons, List.nodup_cons] at hn
      simp only [List.map_cons, Valn.sets]
      rw [ih _ ds hn.2 (by simpa using hl), Valn.sets_notin _ _ _ _ hn.1, Valn.set_self]

theorem quantVal_all {M : Str Sym D} (vs : List Var) (P : Valn D → Prop) : ∀ (ρ : Valn D),
    quantVal M .all vs P ρ ↔ ∀ ds, InDoms M vs ds → P (ρ.sets vs ds) := by
  induction vs with
  | nil =>
    intro ρ
    constructor
    · intro h ds hds; cases ds with
      | nil => exact h
      | cons d ds => exact hds.elim
    · intro h; exact h [] trivial
  | cons v vs ih =>
    intro ρ
    constructor
    · intro h ds hds
      cases ds with
      | nil => exact hds.elim
      | cons d ds => exact (ih _).1 (h d hds.1) ds hds.2
    · intro h d hd
      exact (ih _).2 (fun ds hds => h (d :: ds) ⟨hd, hds⟩)

theorem quantVal_ex {M : Str Sym D} (vs : List Var) (P : Valn D → Prop) : ∀ (ρ : Valn D),
    quantVal M .ex vs P ρ ↔ ∃ ds, InDoms M vs ds ∧ P (ρ.sets vs ds) := by
  induction vs with
  | nil =>
    intro ρ
    constructor
    · intro h; exact ⟨[], trivial, h⟩
    · rintro ⟨ds, hds, h⟩; cases ds with
      | nil => exact h
      | cons d ds => exact hds.elim
  | cons v vs ih =>
    intro ρ
    constructor
    · rintro ⟨d, hd, h⟩
      obtain ⟨ds, hds, h⟩ := (ih _).1 h
      exact ⟨d :: ds, ⟨hd, hds⟩, h⟩
    · rintro ⟨ds, hds, h⟩
      cases ds with
      | nil => exact hds.elim
      | cons d ds => exact ⟨d, hds.1, (ih _).2 ⟨ds, hds.2, h⟩⟩

theorem eval_app_vars (M : Str Sym D) (ρ : Valn D) (f : Sym) (vs : List Var) :
    eval M ρ (.app f (vs.map .var)) = M.fn f (vs.map (fun v => ρ v.id)) := by
  simp [eval, evals_eq, Function.comp_def]

theorem InDoms.shift {M : Str Sym D} (n : Nat) : ∀ {vs : List Var} {ds : List D},
    InDoms M (vs.map (·.shift n)) ds ↔ InDoms M vs ds
  | [], [] => Iff.rfl
  | v :: vs, d :: ds => by simp [InDoms, Var.shift, ← InDoms.shift n (vs := vs)]
  | [], d :: ds => Iff.rfl
  | v :: vs, [] => Iff.rfl

end CV
