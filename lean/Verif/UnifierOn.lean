import Verif.UnifierProps
set_option linter.unusedSimpArgs false
/-
The theorems of `Verif/UnifierProps.lean` (C07) for structures in which only some symbols are constructors.
-/
namespace CV
open Fm
variable {F D : Type}

/-- SPECIFICATION. The symbols in `S` are injective. -/
def Str.InjectiveOn (M : Str F D) (S : F → Prop) : Prop :=
  ∀ f as bs, S f → as.length = bs.length → M.fn f as = M.fn f bs → as = bs

/-- SPECIFICATION. Different symbols of `S` (or arities) never give the same value. -/
def Str.ClashFreeOn (M : Str F D) (S : F → Prop) : Prop :=
  ∀ f g as bs, S f → S g → M.fn f as = M.fn g bs → f = g ∧ as.length = bs.length

/-- A term built from variables and symbols in `S`. -/
inductive Over (S : F → Prop) : Fm F → Prop
  | var (v) : Over S (.var v)
  | app {f args} (hf : S f) (ha : ∀ a ∈ args, Over S a) : Over S (.app f args)

theorem Over.noQuant {S : F → Prop} {t : Fm F} (h : Over S t) : NoQuant t := by
  induction h with
  | var v => exact .var v
  | app _ _ ih => exact .app ih

/-- Values extended with free terms for the symbols outside `S`. -/
inductive Ext (F D : Type)
  | base (d : D)
  | node (f : F) (args : List (Ext F D))
  | prop (p : Prop)

namespace Ext

def val? : Ext F D → Option D
  | base d => some d
  | _ => none

open Classical in
/-- The structure in which the symbols outside `S` are free. -/
noncomputable def str (M : Str F D) (S : F → Prop) : Str F (Ext F D) where
  fn f as := if S f then (match as.mapM val? with
    | some ds => base (M.fn f ds)
    | none => node f as) else node f as
  truth
    | base d => M.truth d
    | prop p => p
    | node _ _ => False
  ofProp := prop
  truth_ofProp _ := Iff.rfl
  dom _ _ := True

theorem val?_inj {a : Ext F D} {d : D} (h : a.val? = some d) : a = base d := by
  cases a <;> simp_all [val?]

theorem mapM_val? {as : List (Ext F D)} {ds : List D} (h : as.mapM val? = some ds) : as = ds.map base := by
  induction as generalizing ds with
  | nil => simp at h; subst h; rfl
  | cons a as ih =>
    rw [List.mapM_cons] at h
    cases ha : a.val? with
    | none => simp [ha] at h
    | some d =>
      cases hr : as.mapM val? with
      | none => simp [ha, hr] at h
      | some es =>
        simp [ha, hr] at h
        subst h
        rw [val?_inj ha, ih hr]; rfl

theorem mapM_base (ds : List D) : (ds.map (base (F := F))).mapM val? = some ds := by
  induction ds with
  | nil => rfl
  | cons d ds ih => simp [List.mapM_cons, val?, ih]

theorem fn_cases (M : Str F D) (S : F → Prop) (f : F) (as : List (Ext F D)) :
    (S f ∧ ∃ ds, as = ds.map base ∧ (str M S).fn f as = base (M.fn f ds)) ∨ (str M S).fn f as = node f as := by
  by_cases hs : S f
  · cases h : as.mapM val? with
    | none => right; simp [str, hs, h]
    | some ds => left; exact ⟨hs, ds, mapM_val? h, by simp [str, hs, h]⟩
  · right; simp [str, hs]

theorem injective (M : Str F D) (S : F → Prop) (h : M.InjectiveOn S) : (str M S).Injective := by
  intro f as bs hl he
  rcases fn_cases M S f as with ⟨hs, ds, rfl, h1⟩ | h1 <;> rcases fn_cases M S f bs with ⟨_, es, rfl, h2⟩ | h2
  · rw [h1, h2] at he
    rw [h f ds es hs (by simpa using hl) (Ext.base.inj he)]
  · rw [h1, h2] at he; cases he
  · rw [h1, h2] at he; cases he
  · rw [h1, h2] at he; exact (Ext.node.inj he).2

theorem clashFree (M : Str F D) (S : F → Prop) (h : M.ClashFreeOn S) : (str M S).ClashFree := by
  intro f g as bs he
  rcases fn_cases M S f as with ⟨hs, ds, rfl, h1⟩ | h1 <;> rcases fn_cases M S g bs with ⟨hs', es, rfl, h2⟩ | h2
  · rw [h1, h2] at he
    simpa using h f g ds es hs hs' (Ext.base.inj he)
  · rw [h1, h2] at he; cases he
  · rw [h1, h2] at he; cases he
  · rw [h1, h2] at he; have := Ext.node.inj he; exact ⟨this.1, by rw [this.2]⟩

theorem eval_over (M : Str F D) (S : F → Prop) (ρ : Valn D) {t : Fm F} (h : Over S t) :
    eval (str M S) (fun i => base (ρ i)) t = base (eval M ρ t) := by
  induction h with
  | var v => rfl
  | @app f args hf _ ih =>
    simp only [eval, evals_eq]
    have e : args.map (eval (str M S) (fun i => base (ρ i))) = (args.map (eval M ρ)).map base := by
      rw [List.map_map]
      exact List.map_congr_left ih
    rw [e]
    simp only [str, hf, if_true, mapM_base]

theorem eval_base (M : Str F D) (S : F → Prop) (ρ : Valn D) (t : Fm F) :
    ∀ d, eval (str M S) (fun i => base (ρ i)) t = base d → d = eval M ρ t := by
  induction t using Fm.ind with
  | hvar v => intro d h; simp only [eval] at h ⊢; exact (Ext.base.inj h).symm
  | happ f args ih =>
    intro d h
    simp only [eval, evals_eq] at h ⊢
    rcases fn_cases M S f (args.map (eval (str M S) (fun i => base (ρ i)))) with ⟨_, ds, h1, h2⟩ | h2
    · rw [h2] at h
      rw [← Ext.base.inj h]
      congr 1
      clear h h2
      induction args generalizing ds with
      | nil => cases ds with
        | nil => rfl
        | cons _ _ => simp at h1
      | cons a args ih2 => cases ds with
        | nil => simp at h1
        | cons e es =>
          simp only [List.map_cons, List.cons.injEq] at h1 ⊢
          exact ⟨ih a (List.mem_cons_self ..) e h1.1,
            ih2 (fun b hb => ih b (List.mem_cons_of_mem _ hb)) es h1.2⟩
    · rw [h2] at h; cases h
  | hquant q vs b _ => intro d h; simp only [eval, str] at h; cases h

end Ext

variable [DecidableEq F]

/-- **C07, generality, when only the symbols of the two terms are constructors.** -/
theorem C07_equalities_most_general_on (M : Str F D) (S : F → Prop) (hM : M.InjectiveOn S) (ρ : Valn D) (n : Nat)
    (l r : Fm F) (u : Unif F) (eqs : List (Nat × Fm F)) (hl : Over S l) (hr : Over S r)
    (h : mgu n l r = some (some u)) (he : u.asEqualities = some eqs) (heq : eval M ρ l = eval M ρ r) :
    SatEqs M ρ eqs := by
  have := C07_equalities_most_general (Ext.str M S) (Ext.injective M S hM) (fun i => Ext.base (ρ i)) n l r u eqs h he
    (by rw [Ext.eval_over M S ρ hl, Ext.eval_over M S ρ hr, heq])
  intro p hp
  exact Ext.eval_base M S ρ p.2 _ (this p hp).symm

/-- **C07, completeness on terms without repeated variables, when only their symbols are constructors.** -/
theorem C07_linear_on_partial (S : F → Prop) (l r : Fm F) (hl : Over S l) (hr : Over S r)
    (hnl : (l.vars.map Var.id).Nodup) (hnr : (r.vars.map Var.id).Nodup) :
    ∃ n, ∀ m, n ≤ m → ∃ a, mgu m l r = some a ∧
      (a = none → ∀ (D : Type) (M : Str F D), M.InjectiveOn S → M.ClashFreeOn S → ∀ ρ : Valn D,
        eval M ρ l ≠ eval M ρ r) := by
  obtain ⟨n, hn⟩ := C07_linear_partial l r hl.noQuant hr.noQuant hnl hnr
  refine ⟨n, fun m hm => ?_⟩
  obtain ⟨a, h1, h2⟩ := hn m hm
  refine ⟨a, h1, fun ha D M hi hc ρ he => ?_⟩
  apply h2 ha (Ext F D) (Ext.str M S) (Ext.injective M S hi) (Ext.clashFree M S hc) (fun i => Ext.base (ρ i))
  rw [Ext.eval_over M S ρ hl, Ext.eval_over M S ρ hr, he]

/-- Non-vacuity: a structure on numbers where symbol `0` is a pairing and symbol `1` is constant. -/
example : ∃ (M : Str Nat (List Nat)), M.InjectiveOn (fun f => f = 0) ∧ ¬ M.Injective ∧
    Over (fun f => f = 0) (.app 0 [.var ⟨1, .message⟩] : Fm Nat) ∧
    mgu 5 (.app 0 [.var ⟨1, .message⟩] : Fm Nat) (.app 0 [.app 0 []]) = some (some ⟨[(1, .app 0 [])], []⟩) := by
  refine ⟨{ fn := fun f as => if f = 0 then (as.flatMap (fun a => a.map (· + 1) ++ [0])) else []
            truth := fun d => d = [], ofProp := fun p => ?_, truth_ofProp := ?_, dom := fun _ _ => True }, ?_, ?_, ?_, ?_⟩
  · exact @ite _ p (Classical.propDecidable p) [] [0]
  · intro p; by_cases h : p <;> simp [h]
  · intro f as bs hf _ h
    have hf' : f = 0 := hf
    simp only [hf', if_true] at h
    have key : ∀ as bs : List (List Nat), as.flatMap (fun a => a.map (· + 1) ++ [0]) = bs.flatMap (fun a => a.map (· + 1) ++ [0]) → as = bs := by
      intro as
      induction as with
      | nil => intro bs h; cases bs with
        | nil => rfl
        | cons b bs => simp at h
      | cons a as ih => intro bs h; cases bs with
        | nil => simp at h
        | cons b bs =>
          have sp : ∀ (a b : List Nat) (x y : List Nat), a.map (· + 1) ++ [0] ++ x = b.map (· + 1) ++ [0] ++ y → a = b ∧ x = y := by
            intro a
            induction a with
            | nil => intro b x y h; cases b with
              | nil => simpa using h
              | cons _ _ => simp at h
            | cons c a iha => intro b x y h; cases b with
              | nil => simp at h
              | cons d b =>
                simp only [List.map_cons, List.cons_append, List.cons.injEq] at h
                obtain ⟨h1, h2⟩ := iha b x y (by simpa using h.2)
                exact ⟨by rw [h1]; congr 1; omega, h2⟩
          simp only [List.flatMap_cons] at h
          obtain ⟨h1, h2⟩ := sp a b _ _ h
          rw [h1, ih bs h2]
    exact key as bs h
  · intro h
    have := h 1 [[0]] [[]] rfl (by simp)
    simp at this
  · exact .app rfl (by intro a ha; simp at ha; subst ha; exact .var _)
  · simp [mgu, mguAux, mguAll, MSubst.maybeGet, MSubst.add, isVarEq]

end CV
