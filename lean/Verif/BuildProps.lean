import Verif.Build
import Verif.ElabSorted
import Verif.GenerateProps
set_option linter.unusedSimpArgs false
set_option linter.unusedTactic false
/-
C84: from the file to the query. The problem built for a parsed file is the one that `C71` is about, and it means what the
texts of the file mean.
-/
namespace CV
namespace Bld
open Dep Ev Cry Prs Fm

/-! ## Names and numbers -/

section
variable {P : LProblem}

theorem lookup_key {β : Type} {l : List (String × β)} {n : String} {c : β} (h : l.lookup n = some c) : n ∈ l.map Prod.fst :=
  (lookup_isSome l n).1 (by rw [h]; rfl)

theorem num_spec {n : String} (h : n ∈ P.env.functions.map Prod.fst) : num P n < P.env.functions.length ∧ nameAt P (num P n) = n := by
  obtain ⟨p, hp, rfl⟩ := List.mem_map.1 h
  have hlt : num P p.1 < P.env.functions.length := List.findIdx_lt_length_of_exists ⟨p, hp, by simp⟩
  refine ⟨hlt, ?_⟩
  have hg : ((P.env.functions[num P p.1]'hlt).1 == p.1) = true := List.findIdx_getElem (w := hlt)
  unfold nameAt
  rw [List.getElem?_eq_getElem hlt]
  simpa using hg

/-- The symbol is one that the file knows. -/
def Known (P : LProblem) (x : PF) : Prop := ∀ n, x = .sym n → n ∈ P.env.functions.map Prod.fst

theorem ofSym_toSym {x : PF} (h : Known P x) : ofSym P (toSym P x) = .f x := by
  cases x with
  | sym n =>
    obtain ⟨h1, h2⟩ := num_spec (h n rfl)
    simp only [toSym]
    repeat' split
    all_goals first
      | (rename_i e; subst e; rfl)
      | (simp only [ofSym, h1, h2, if_true])
  | taq k => simp [toSym, ofSym]
  | _ => rfl

theorem known_fn {tbl : List TAQ} {x : PF} {ss : List Srt} {s : Srt} (h : FnSrt P.env.sg tbl x ss s) : Known P x := by
  intro n e
  subst e
  cases h with
  | sym h =>
    unfold DEnv.sg at h
    cases hl : P.env.functions.lookup n with
    | none => rw [hl] at h; cases h
    | some c => exact lookup_key hl

theorem mapFs_eq {F G : Type} (f : F → G) : ∀ l : List (Fm F), Fm.mapFs f l = l.map (Fm.mapF f)
  | [] => rfl
  | a :: l => by rw [Fm.mapFs, mapFs_eq f l, List.map_cons]

/-- A formula of the parser survives the numbering of its symbols. -/
theorem up_down {tbl : List TAQ} {C : Prs.Ctx} {φ : Fm PF} {s : Srt} (h : HasSrt P.env.sg tbl C φ s) :
    (down P φ).mapF (ofSym P) = up φ := by
  unfold down up
  induction h with
  | var _ => rfl
  | @app C f args ss s hf hl _ ih =>
    simp only [Fm.mapF, mapFs_eq, ofSym_toSym (known_fn hf), List.map_map]
    congr 1
    refine List.map_congr_left fun a ha => ?_
    obtain ⟨i, hi, rfl⟩ := List.mem_iff_getElem.1 ha
    exact ih (args[i], ss[i]'(hl ▸ hi)) (List.mem_iff_getElem.2 ⟨i, by simp only [List.length_zip]; omega, by simp⟩)
  | quant _ ih => simp only [Fm.mapF, ih]

theorem eval_up {D : Type} (M : Str BF D) (φ : Fm PF) (ρ : Valn D) : Fm.eval M ρ (up φ) = Fm.eval (M.comap .f) ρ φ :=
  eval_mapF M .f φ ρ

theorem eval_down {D : Type} (M : Str BF D) {tbl : List TAQ} {C : Prs.Ctx} {φ : Fm PF} {s : Srt} (h : HasSrt P.env.sg tbl C φ s)
    (ρ : Valn D) : Fm.eval (M.comap (ofSym P)) ρ (down P φ) = Fm.eval (M.comap .f) ρ φ := by
  rw [← eval_mapF, up_down h, eval_up]

theorem ofSym_step {n : String} (h : n ∈ P.env.functions.map Prod.fst) : ofSym P (.step (num P n)) = .f (.sym n) := by
  simp only [ofSym, (num_spec h).2]

theorem num_inj {n m : String} (hn : n ∈ P.env.functions.map Prod.fst) (hm : m ∈ P.env.functions.map Prod.fst) (h : num P n = num P m) :
    n = m := by rw [← (num_spec hn).2, h, (num_spec hm).2]

/-! ## The environment of the generators is as they expect -/

/-- SPECIFICATION. The head of a symbolic content is not a first-order conditional; a variable has the right sort. -/
def Head (b : Fm PF) (s : Srt) : Prop := (∀ v, b = .var v → v.sort = s) ∧ ∀ args, b ≠ .app .ite args

/-- SPECIFICATION. The variables of the functions made for quantifiers and `find`s are different, the contents of a `find` has
no first-order quantifier and no other variable than those, with their sorts, and the last branch does not use the variables it binds. -/
def TblPlain (tbl : List TAQ) : Prop := ∀ q ∈ tbl, match q with
  | .quant _ _ fr b => (fr.map Var.id).Nodup ∧ Head b .condition
  | .find bs fr c l r => ((bs ++ fr).map Var.id).Nodup ∧ (∀ t ∈ [c, l, r], NoQuant t ∧ ∀ v ∈ t.vars, v ∈ bs ++ fr) ∧
      (∀ v ∈ r.vars, v ∈ fr) ∧ Head c .condition ∧ Head l .message ∧ Head r .message

theorem sg_sigOf {n : String} {a : List Srt} {s : Srt} (h : P.env.sg n = some (a, s)) : sigOf P (.sym n) = some (a, s) := by
  unfold DEnv.sg at h
  cases hl : P.env.functions.lookup n with
  | none => rw [hl] at h; cases h
  | some c =>
    rw [hl] at h
    simp only [sigOf, hl, Option.map_some]
    cases c with
    | func i =>
      simp only [Cache.info] at h ⊢
      cases hs : i.sig <;> rw [hs] at h <;> exact h
    | step ps d => exact h
    | cell as => exact h

/-- The output sort is the one of the signature. -/
theorem fn_out {x : PF} {ss : List Srt} {s : Srt} (h : FnSrt P.env.sg P.tbl x ss s) : outSort P (.f x) = some s ∨ x = .ite := by
  cases h with
  | sym h => exact .inl (by show (sigOf P (.sym _)).map Prod.snd = _; rw [sg_sigOf h]; rfl)
  | taQuant h => exact .inl (by show (sigOf P (.taq _)).map Prod.snd = _; simp only [sigOf, h]; rfl)
  | taFind h => exact .inl (by show (sigOf P (.taq _)).map Prod.snd = _; simp only [sigOf, h]; rfl)
  | ite => exact .inr rfl
  | _ => exact .inl rfl

theorem sortOf_up {C : Prs.Ctx} {φ : Fm PF} {s : Srt} (h : HasSrt P.env.sg P.tbl C φ s) (hs : s ≠ .bool) (hh : Head φ s) :
    (lang P).sortOf (up φ) = some s := by
  cases h with
  | var _ => rw [← hh.1 _ rfl]; rfl
  | app hf hl _ =>
    rcases fn_out hf with h | h
    · exact sortOf_app h _
    · subst h
      exact absurd rfl (hh.2 _)
  | quant _ => exact absurd rfl hs

theorem noQuant_up {φ : Fm PF} (h : NoQuant φ) : NoQuant (up φ) := by
  unfold up
  induction h with
  | var v => exact .var v
  | app _ ih =>
    simp only [Fm.mapF, mapFs_eq]
    refine .app fun a ha => ?_
    obtain ⟨b, hb, rfl⟩ := List.mem_map.1 ha
    exact ih b hb

theorem vars_up (φ : Fm PF) : (up φ).vars = φ.vars := by
  unfold up
  induction φ using Fm.ind with
  | hvar v => rfl
  | happ f args ih =>
    simp only [Fm.mapF, mapFs_eq, vars, varss_eq, List.flatMap_map]
    exact List.flatMap_congr ih
  | hquant q vs b ih => simp only [Fm.mapF, vars, ih]

theorem hasSym_up {g : BF} {φ : Fm PF} (h : HasSym g (up φ)) : ∃ x, g = .f x := by
  unfold up at h
  induction φ using Fm.ind with
  | hvar v => cases h
  | happ f args ih =>
    rw [Fm.mapF] at h
    cases h with
    | here => exact ⟨f, rfl⟩
    | arg ha h =>
      rw [mapFs_eq] at ha
      obtain ⟨b, hb, rfl⟩ := List.mem_map.1 ha
      exact ih b hb h
  | hquant q vs b ih =>
    rw [Fm.mapF] at h
    cases h with
    | body h => exact ih h

theorem noSkolem (φ : Fm PF) (g : BF) (i : Nat) : ¬ HasSym (.sk g i) (up φ) := fun h => by
  obtain ⟨x, hx⟩ := hasSym_up h
  cases hx

/-- What the kind of a symbol is. -/
theorem ekind_taq {f : BF} {q : QKind} {bs fr : List Var} {c : Fm BF} (h : ekind P f = .taq q bs fr c) :
    ∃ k b, f = .f (.taq k) ∧ P.tbl[k]? = some (.quant q bs fr b) ∧ c = up b := by
  unfold ekind at h
  split at h
  all_goals first
    | (cases h; done)
    | (repeat' split at h) <;> first
      | (cases h; exact ⟨_, _, rfl, by assumption, rfl⟩)
      | (cases h; done)

theorem ekind_fst {f : BF} {bs fr : List Var} {c l r : Fm BF} (h : ekind P f = .fst bs fr c l r) :
    ∃ k c' l' r', f = .f (.taq k) ∧ P.tbl[k]? = some (.find bs fr c' l' r') ∧ c = up c' ∧ l = up l' ∧ r = up r' := by
  unfold ekind at h
  split at h
  all_goals first
    | (cases h; done)
    | (repeat' split at h) <;> first
      | (cases h; exact ⟨_, _, _, _, rfl, by assumption, rfl, rfl, rfl⟩)
      | (cases h; done)

/-- The signature of a symbol that is not new. -/
def sigB (P : LProblem) : Sig BF
  | .f x => sigOf P x
  | _ => none

theorem sigB_out {f : BF} {a : List Srt} {s : Srt} (h : sigB P f = some (a, s)) : outSort P f = some s := by
  cases f with
  | f x =>
    change sigOf P x = some (a, s) at h
    have e : outSort P (.f x) = (sigOf P x).map Prod.snd := by
      cases x <;> first | rfl | cases h
    rw [e, h]; rfl
  | _ => cases h

theorem ekind_base {f ev : BF} {a : List Srt} {s : Srt} (h : ekind P f = .base a s ev) :
    sigB P f = some (a, s) ∧ ∃ x, ev = .ev x := by
  unfold ekind at h
  split at h
  all_goals first
    | (cases h; done)
    | (repeat' split at h) <;> first
      | (cases h; exact ⟨by assumption, _, rfl⟩)
      | (cases h; done)

theorem ekind_conn {f ev : BF} {a : List Srt} (h : ekind P f = .conn a ev) :
    sigB P f = some (a, .condition) ∧ ∃ x, ev = .f x := by
  unfold ekind at h
  split at h
  all_goals first
    | (cases h; done)
    | (cases h; exact ⟨rfl, _, rfl⟩)
    | (repeat' split at h) <;> first
      | (cases h; subst_vars; exact ⟨by assumption, _, rfl⟩)
      | (cases h; done)

theorem ekind_eqTa {f : BF} (h : ekind P f = .eqTa) : f = .f .taEq := by
  unfold ekind at h
  split at h
  all_goals first
    | (cases h; done)
    | rfl
    | (repeat' split at h) <;> (cases h; done)

theorem ekind_notTa {f : BF} (h : ekind P f = .notTa) : f = .f .taNot := by
  unfold ekind at h
  split at h
  all_goals first
    | (cases h; done)
    | rfl
    | (repeat' split at h) <;> (cases h; done)

theorem ekind_ite {f : BF} (h : ekind P f = .ite) : f = .f .taIte := by
  unfold ekind at h
  split at h
  all_goals first
    | (cases h; done)
    | rfl
    | (repeat' split at h) <;> (cases h; done)

theorem ekind_evaluate {f : BF} (h : ekind P f = .evaluate) : f = .f .evalMsg ∨ f = .f .evalCond := by
  unfold ekind at h
  split at h
  all_goals first
    | (cases h; done)
    | exact .inl rfl
    | exact .inr rfl
    | (repeat' split at h) <;> (cases h; done)

theorem evaluated_old {o : Opt} {g g' : BF} (h : (cfg o P).evaluated g = some g') : (∃ x, g' = .f x) ∨ ∃ x, g' = .ev x := by
  unfold Cfg.evaluated at h
  split at h <;> rename_i h'
  · cases h; exact .inr (ekind_base h').2
  · cases h; exact .inl (ekind_conn h').2
  · cases h; exact .inl ⟨_, rfl⟩
  · cases h; exact .inl ⟨_, rfl⟩
  · cases h

theorem evs_lookup {o : Opt} {s : Srt} {e : BF} (h : (cfg o P).evs.lookup s = some e) : e = .f .evalMsg ∨ e = .f .evalCond := by
  simp only [cfg, List.lookup_cons, List.lookup_nil] at h
  split at h
  · cases h; exact .inl rfl
  · split at h
    · cases h; exact .inr rfl
    · cases h

/-- The environment is as `C32`, `C33`, `C60` and `C71` ask. -/
theorem cfg_ok (o : Opt) (hs : TblSrt P.env.sg P.tbl) (ht : TblPlain P.tbl) : (cfg o P).OK where
  base f a s ev h := sigB_out (ekind_base h).1
  conn f a ev h := sigB_out (ekind_conn h).1
  eqTa f h := by cases ekind_eqTa h; rfl
  notTa f h := by cases ekind_notTa h; rfl
  ite f h := by cases ekind_ite h; rfl
  taq f q bs fr c h := by
    obtain ⟨k, b, rfl, hk, rfl⟩ := ekind_taq h
    have hm := List.mem_of_getElem? hk
    have h1 := ht _ hm
    refine ⟨?_, h1.1, sortOf_up (hs _ hm) nofun h1.2, fun g i => noSkolem b g i⟩
    exact sigB_out (P := P) (f := .f (.taq k)) (a := fr.map Var.sort) (s := .condition) (by simp [sigB, sigOf, hk])
  fst f bs fr c l r h := by
    obtain ⟨k, c, l, r, rfl, hk, rfl, rfl, rfl⟩ := ekind_fst h
    have hm := List.mem_of_getElem? hk
    obtain ⟨h1, h2, h3, h4, h5, h6⟩ := ht _ hm
    obtain ⟨s1, s2, s3⟩ := hs _ hm
    refine ⟨sigB_out (P := P) (f := .f (.taq k)) (a := fr.map Var.sort) (s := .message) (by simp [sigB, sigOf, hk]), h1, sortOf_up s1 nofun h4, sortOf_up s2 nofun h5,
      sortOf_up s3 nofun h6, ?_, by rw [vars_up]; exact h3, ?_⟩
    · intro t ht
      simp only [List.mem_cons, List.not_mem_nil, or_false] at ht
      rcases ht with rfl | rfl | rfl
      · exact ⟨noQuant_up (h2 c (by simp)).1, by rw [vars_up]; exact (h2 c (by simp)).2, fun g i => noSkolem _ g i⟩
      · exact ⟨noQuant_up (h2 l (by simp)).1, by rw [vars_up]; exact (h2 l (by simp)).2, fun g i => noSkolem _ g i⟩
      · exact ⟨noQuant_up (h2 r (by simp)).1, by rw [vars_up]; exact (h2 r (by simp)).2, fun g i => noSkolem _ g i⟩
    · intro i v hi
      show outSort P (.sk (.f (.taq k)) i) = _
      simp only [outSort, hk, hi]
      rfl
  skolem_inj f g i j h := BF.sk.inj h
  skolem_logic f i := ⟨nofun, nofun, nofun, nofun, nofun, nofun, nofun⟩
  skolem_ev f i s e h := by rcases evs_lookup h with rfl | rfl <;> nofun
  skolem_kind f i := rfl
  skolem_eval f i g g' h := by rcases evaluated_old h with ⟨x, rfl⟩ | ⟨x, rfl⟩ <;> nofun

/-- SPECIFICATION. The structure gives the symbols of the file values of their sorts. -/
def Sorted (P : LProblem) {D : Type} (N : Str PF D) : Prop :=
  ∀ x a s, sigOf P x = some (a, s) → ∀ ds, List.Forall₂ N.dom a ds → N.dom s (N.fn x ds)

theorem typing (o : Opt) {D : Type} {M : Str BF D} (h : Sorted P (M.comap .f)) : Typing (cfg o P) M (sigB P) where
  out f a s h := sigB_out h
  fn f a s hf ds hds := by
    cases f with
    | f x => exact h x a s hf ds hds
    | _ => cases hf
  base f a s ev h := (ekind_base h).1
  conn f a ev h := (ekind_conn h).1
  eqTa f h := by cases ekind_eqTa h; rfl
  notTa f h := by cases ekind_notTa h; rfl
  ev f h := by
    rcases ekind_evaluate h with rfl | rfl
    · exact ⟨.message, .bitstring, rfl, rfl⟩
    · exact ⟨.condition, .bool, rfl, rfl⟩
  evs s h := by
    cases s with
    | message => cases h
    | condition => cases h
    | _ => rfl

end

/-! ## Formulas through which evaluation is pushed -/

section
variable (P : LProblem)

/-- Has the symbol an evaluated counterpart. -/
def hasEv (x : PF) : Bool :=
  match ekind P (.f x) with
  | .base _ _ _ | .conn _ _ | .eqTa | .notTa => true
  | _ => false

/-- Is the symbol made for a symbolic quantifier. -/
def isQ (x : PF) : Bool :=
  match ekind P (.f x) with
  | .taq _ _ _ _ => true
  | _ => false

mutual
/-- SPECIFICATION. The sort of a term without quantifier, if it is well sorted. -/
def wsOk (C : Prs.Ctx) : Fm PF → Option Srt
  | .var v => if C v.id = some v.sort then some v.sort else none
  | .app x args =>
    match sigOf P x with
    | some (a, s) => if wsOks C args = some a then some s else none
    | none => none
  | .quant _ _ _ => none
/-- SPECIFICATION. The same for lists. -/
def wsOks (C : Prs.Ctx) : List (Fm PF) → Option (List Srt)
  | [] => some []
  | t :: l =>
    match wsOk C t, wsOks C l with
    | some s, some ss => some (s :: ss)
    | _, _ => none
end

mutual
/-- SPECIFICATION. The same for terms whose evaluation can be pushed: until a symbol without evaluated counterpart, there are no
variables that can be evaluated and no symbolic quantifiers. -/
def symOk (C : Prs.Ctx) : Fm PF → Option Srt
  | .var v => if C v.id = some v.sort ∧ evalSort v.sort = none then some v.sort else none
  | .app x args =>
    match sigOf P x with
    | some (a, s) =>
      if hasEv P x then (if symOks C args = some a then some s else none)
      else if isQ P x then none
      else if wsOks P C args = some a then some s else none
    | none => none
  | .quant _ _ _ => none
/-- SPECIFICATION. The same for lists. -/
def symOks (C : Prs.Ctx) : List (Fm PF) → Option (List Srt)
  | [] => some []
  | t :: l =>
    match symOk C t, symOks C l with
    | some s, some ss => some (s :: ss)
    | _, _ => none
end

mutual
/-- SPECIFICATION. Formulas all of whose evaluations can be pushed. -/
def formOk (C : Prs.Ctx) : Fm PF → Bool
  | .var _ => true
  | .app x args =>
    if x = .evalMsg then symOks P C args = some [.message]
    else if x = .evalCond then symOks P C args = some [.condition]
    else formOks C args
  | .quant _ vs b => formOk (bindC C vs) b
/-- SPECIFICATION. The same for lists. -/
def formOks (C : Prs.Ctx) : List (Fm PF) → Bool
  | [] => true
  | t :: l => formOk C t && formOks C l
end
end

section
variable {P : LProblem}

/-- The sorts of the variables agree. -/
def Agree (C : Prs.Ctx) (Γ : Nat → Srt) : Prop := ∀ i s, C i = some s → Γ i = s

theorem Agree.upd : ∀ (vs : List Var) {C : Prs.Ctx} {Γ : Nat → Srt}, Agree C Γ → Agree (bindC C vs) (upd Γ vs)
  | [], _, _, h => h
  | v :: vs, C, Γ, h => by
    refine Agree.upd vs fun i s hi => ?_
    split at hi
    · cases hi; rename_i e; simp [e]
    · rename_i e; rw [if_neg e]; exact h i s hi

theorem oks_zip {R : Fm BF → Srt → Prop} {f : Fm PF → Option Srt} {fs : List (Fm PF) → Option (List Srt)} (h0 : fs [] = some [])
    (h1 : ∀ t l, fs (t :: l) = match f t, fs l with | some s, some ss => some (s :: ss) | _, _ => none) :
    ∀ (l : List (Fm PF)) (ss : List Srt), (∀ t ∈ l, ∀ s, f t = some s → R (up t) s) → fs l = some ss →
      (l.map up).length = ss.length ∧ ∀ p ∈ (l.map up).zip ss, R p.1 p.2
  | [], ss, _, h => by rw [h0] at h; cases h; simp
  | t :: l, ss, hR, h => by
    rw [h1] at h
    split at h
    · rename_i s ss' e1 e2
      cases h
      obtain ⟨i1, i2⟩ := oks_zip h0 h1 l ss' (fun t ht => hR t (by simp [ht])) e2
      refine ⟨by simpa using i1, ?_⟩
      simp only [List.map_cons, List.zip_cons_cons, List.mem_cons]
      rintro p (rfl | hp)
      · exact hR t (by simp) s e1
      · exact i2 p hp
    · cases h

theorem up_app (x : PF) (args : List (Fm PF)) : up (.app x args) = .app (.f x) (args.map up) := by
  unfold up; rw [Fm.mapF, mapFs_eq]

theorem wsOk_ws {C : Prs.Ctx} {Γ : Nat → Srt} (hA : Agree C Γ) (φ : Fm PF) : ∀ s, wsOk P C φ = some s → WS (sigB P) Γ (up φ) s := by
  induction φ using Fm.ind with
  | hvar v =>
    intro s h
    simp only [wsOk] at h
    split at h
    · cases h; rename_i e; exact .var v (hA _ _ e)
    · cases h
  | happ x args ih =>
    intro s h
    simp only [wsOk] at h
    split at h
    · rename_i a s' e
      split at h
      · cases h
        rename_i e'
        obtain ⟨h1, h2⟩ := oks_zip (R := WS (sigB P) Γ) rfl (fun _ _ => rfl) args a ih e'
        rw [up_app]
        exact .app (sorts := a) e h1 h2
      · cases h
    · cases h
  | hquant q vs b _ => intro s h; cases h

theorem hasEv_iff (o : Opt) (x : PF) : hasEv P x = ((cfg o P).evaluated (.f x)).isSome := by
  have hk : (cfg o P).kind (.f x) = ekind P (.f x) := rfl
  unfold hasEv Cfg.evaluated
  rw [hk]
  cases ekind P (.f x) <;> rfl

theorem symOk_push (o : Opt) {C : Prs.Ctx} {Γ : Nat → Srt} (hA : Agree C Γ) (φ : Fm PF) : ∀ s, symOk P C φ = some s →
    Pushable (cfg o P) (sigB P) Γ (up φ) s := by
  induction φ using Fm.ind with
  | hvar v =>
    intro s h
    simp only [symOk] at h
    split at h
    · cases h; rename_i e; exact .var v (hA _ _ e.1) e.2
    · cases h
  | happ x args ih =>
    intro s h
    simp only [symOk] at h
    split at h
    · rename_i a s' e
      rw [up_app]
      split at h
      · rename_i hv
        split at h
        · cases h
          rename_i e'
          obtain ⟨h1, h2⟩ := oks_zip (R := Pushable (cfg o P) (sigB P) Γ) rfl (fun _ _ => rfl) args a ih e'
          rw [hasEv_iff o] at hv
          obtain ⟨g, hg⟩ := Option.isSome_iff_exists.1 hv
          exact .fn hg (sorts := a) e h1 h2
        · cases h
      · rename_i hv
        split at h
        · cases h
        · rename_i hq
          split at h
          · cases h
            rename_i e'
            refine .stop ?_ ?_ ?_
            · rw [hasEv_iff o] at hv
              simpa using hv
            · intro q b fr c hk
              change ekind P (.f x) = _ at hk
              simp [isQ, hk] at hq
            · obtain ⟨h1, h2⟩ := oks_zip (R := WS (sigB P) Γ) rfl (fun _ _ => rfl) args a (fun t _ => wsOk_ws hA t) e'
              exact .app (sorts := a) e h1 h2
          · cases h
    · cases h
  | hquant q vs b _ => intro s h; cases h

theorem one_arg {l : List (Fm PF)} {C : Prs.Ctx} {s : Srt} (h : symOks P C l = some [s]) : ∃ a, l = [a] ∧ symOk P C a = some s := by
  match l, h with
  | [a], h =>
    simp only [symOks] at h
    split at h
    · cases h; exact ⟨a, rfl, by assumption⟩
    · cases h
  | a :: b :: l, h =>
    simp only [symOks] at h
    split at h
    · rename_i e
      split at e
      · cases e; cases h
      · cases e
    · cases h

theorem formOks_mem {C : Prs.Ctx} : ∀ {l : List (Fm PF)}, formOks P C l = true → ∀ a ∈ l, formOk P C a = true
  | a :: l, h, b, hb => by
    simp only [formOks, Bool.and_eq_true] at h
    rcases List.mem_cons.1 hb with rfl | hb
    · exact h.1
    · exact formOks_mem h.2 b hb

theorem formOk_push (o : Opt) (φ : Fm PF) : ∀ {C : Prs.Ctx} {Γ : Nat → Srt}, Agree C Γ → formOk P C φ = true →
    PushableF (cfg o P) (sigB P) Γ (up φ) := by
  induction φ using Fm.ind with
  | hvar v => intro C Γ _ _; exact .var v
  | happ x args ih =>
    intro C Γ hA h
    simp only [formOk] at h
    rw [up_app]
    split at h
    · rename_i e
      subst e
      obtain ⟨a, rfl, ha⟩ := one_arg (of_decide_eq_true h)
      exact .ev (s := .message) (o := .bitstring) rfl rfl (symOk_push o hA a _ ha)
    · split at h
      · rename_i e
        subst e
        obtain ⟨a, rfl, ha⟩ := one_arg (of_decide_eq_true h)
        exact .ev (s := .condition) (o := .bool) rfl rfl (symOk_push o hA a _ ha)
      · rename_i e1 e2
        refine .app (fun hk => ?_) fun a ha => ?_
        · rcases ekind_evaluate hk with e | e
          · cases e; exact e1 rfl
          · cases e; exact e2 rfl
        · obtain ⟨b, hb, rfl⟩ := List.mem_map.1 ha
          exact ih b hb hA (formOks_mem h b hb)
  | hquant q vs b ih =>
    intro C Γ hA h
    exact .quant (ih (hA.upd vs) h)

theorem le_sum {l : List Nat} {n : Nat} (h : n ∈ l) : n ≤ l.sum := by
  induction l with
  | nil => cases h
  | cons a l ih =>
    rw [List.sum_cons]
    rcases List.mem_cons.1 h with rfl | h
    · omega
    · have := ih h; omega

theorem size_pushFuel {φ : Fm PF} (h : φ ∈ P.query :: P.assertions) : (up φ).size ≤ pushFuel P :=
  le_sum (List.mem_map.2 ⟨φ, h, rfl⟩)

end

end Bld
end CV
