/-
Property C83: what is made of a well-sorted file is a well-sorted problem.
-/
import Verif.ElabTyped
import Verif.ElabLoad

set_option linter.unusedSimpArgs false
set_option linter.unnecessarySeqFocus false

namespace CV
namespace Prs
open Fm

/-! ## Specification -/

/-- SPECIFICATION. The declared sorts of the functions of an environment: a step takes its parameters and gives a step, a cell takes
its parameters and a step and gives a message. -/
def DEnv.sg (D : DEnv) : Sg := fun f =>
  match D.functions.lookup f with
  | some (.func i) =>
    match i.sig with
    | .fixed a o => some (a, o)
    | _ => none
  | some (.step ps _) => some (ps.map Prod.snd, .step)
  | some (.cell as) => some (as ++ [.step], .message)
  | none => none

/-- SPECIFICATION. No variable. -/
def noC : Ctx := fun _ => none

/-- SPECIFICATION. A step is well sorted: over its own variables, its message is a message and its condition a condition. -/
structure StepSrt (decl : Sg) (tbl : List TAQ) (s : LStep) : Prop where
  message : HasSrt decl tbl (bindC noC s.vars) s.message .message
  condition : HasSrt decl tbl (bindC noC s.vars) s.condition .condition

/-- SPECIFICATION. An assignment, in a step with the variables `vars`, to a cell with parameters of sorts `ss`, is well sorted: it gives
each parameter of the cell an argument of its sort, and its contents is a message. -/
structure AssignSrt (decl : Sg) (tbl : List TAQ) (vars : List Var) (ss : List Srt) (a : LAssign) : Prop where
  arity : a.args.length = ss.length
  args : ∀ p ∈ a.args.zip ss, HasSrt decl tbl (bindC (bindC noC vars) a.fresh) p.1 p.2
  content : HasSrt decl tbl (bindC (bindC noC vars) a.fresh) a.content .message

/-- SPECIFICATION. An order is well sorted: between steps, under a formula. -/
structure OrderSrt (decl : Sg) (tbl : List TAQ) (o : LOrder) : Prop where
  guard : HasSrt decl tbl (bindC noC o.vars) o.guard .bool
  fst : HasSrt decl tbl (bindC noC o.vars) o.fst .step
  snd : HasSrt decl tbl (bindC noC o.vars) o.snd .step

/-- SPECIFICATION. A well-sorted problem. -/
structure ProbSrt (decl : Sg) (P : LProblem) : Prop where
  tbl : TblSrt decl P.tbl
  steps : ∀ s ∈ P.steps, StepSrt decl P.tbl s
  cells : ∀ c ∈ P.cells, ∀ a ∈ c.assigns, ∃ s ∈ P.steps, s.name = a.step ∧ AssignSrt decl P.tbl s.vars c.args a
  orders : ∀ o ∈ P.orders, OrderSrt decl P.tbl o
  assertions : ∀ φ ∈ P.assertions, HasSrt decl P.tbl noC φ .bool
  lemmas : ∀ φ ∈ P.lemmas, HasSrt decl P.tbl noC φ .bool
  query : HasSrt decl P.tbl noC P.query .bool

/-- SPECIFICATION. The texts of a file are clean: see `Clean`. -/
structure FileClean (D : DEnv) (l : List Decl) : Prop where
  texts : ∀ t, Decl.assertion t ∈ l ∨ Decl.lem t ∈ l ∨ Decl.query t ∈ l → Clean (fileEnv D l).toEnv .ev [] [] t
  steps : ∀ d, Decl.step d ∈ l → StepClean (fileEnv D l) (d.params.map fun b => (b.1, (fileEnv D l).sortD b.2)) d
  orders : ∀ o, Decl.order o ∈ l → OrderClean (fileEnv D l) o

/-! ## Declarations -/

/-- What is known of each function. -/
def Native (f : String) (c : Cache) : Prop := ∀ i a o, c = .func i → i.sig = .fixed a o →
  (i.sym = .sym f ∨ ∀ decl, FnSrt decl [] i.sym a o) ∧ (i.isName = true ↔ o = .name)

theorem native_builtin (p : String × Cache) (h : p ∈ builtinFunctions) : Native p.1 p.2 := by
  simp only [builtinFunctions, List.mem_cons, List.not_mem_nil, or_false] at h
  rcases h with rfl | rfl | rfl | rfl | rfl | rfl | rfl | rfl | rfl | rfl | rfl | rfl | rfl | rfl | rfl | rfl | rfl | rfl | rfl | rfl | rfl | rfl | rfl | rfl | rfl | rfl | rfl | rfl | rfl <;>
    (intro i a o hi hs; cases hi; cases hs <;> (refine ⟨?_, by simp⟩; first | exact .inl rfl | exact .inr fun _ => by constructor))

theorem native_new {D : DEnv} {l : List Decl} {p : String × Cache} (h : p ∈ newFunctions D l) : Native p.1 p.2 := by
  intro i a o hi hs
  simp only [newFunctions, List.mem_append, List.mem_filterMap, List.mem_map] at h
  rcases h with ⟨d, _, hd⟩ | ⟨n, _, rfl⟩
  · cases d <;> simp only [mkCache, Option.some.injEq, reduceCtorEq] at hd
    all_goals (subst hd; simp only [reduceCtorEq] at hi)
    cases hi; cases hs
    exact ⟨.inl rfl, by simp⟩
  · cases hi

theorem native_file {sh : Bool} {l : List Decl} {f : String} {c : Cache} (h : (fileEnv (env0 sh) l).functions.lookup f = some c) : Native f c := by
  have := lookup_map_mem h
  rw [fileEnv_functions, List.mem_append] at this
  rcases this with h | h
  · exact native_builtin _ h
  · exact native_new h

/-- The environment of a file has the declared sorts. -/
theorem declOk_file (sh : Bool) (l : List Decl) : DeclOk (fileEnv (env0 sh) l).toEnv (fileEnv (env0 sh) l).sg := by
  intro f i a o hf hi
  simp only [DEnv.toEnv, Option.map_eq_some_iff] at hf
  obtain ⟨c, hc, rfl⟩ := hf
  have hn := native_file hc
  cases c with
  | func i =>
    obtain ⟨h1, h2⟩ := hn i a o rfl hi
    refine ⟨?_, h2⟩
    rcases h1 with h1 | h1
    · simp only [Cache.info] at hi ⊢
      rw [h1]
      exact .sym (by simp only [DEnv.sg, hc, hi])
    · exact h1 _
  | step ps d =>
    simp only [Cache.info] at hi ⊢
    cases hi
    exact ⟨.sym (by simp only [DEnv.sg, hc]), by simp⟩
  | cell as =>
    simp only [Cache.info] at hi ⊢
    cases hi
    exact ⟨.sym (by simp only [DEnv.sg, hc]), by simp⟩

/-! ## Contexts -/

theorem bindC_num (C : Ctx) (n : Nat) (l : List (String × Srt)) (i : Nat) : bindC C ((numFrom n l).map Prod.snd) i =
    if n ≤ i ∧ i < n + l.length then (l[i - n]?).map Prod.snd else C i := by
  induction l generalizing n C with
  | nil => simp [numFrom, bindC]; omega
  | cons b l ih =>
    simp only [numFrom, List.map_cons, bindC, ih, List.length_cons]
    by_cases h : i = n
    · subst h
      rw [if_neg (by omega), if_pos rfl, if_pos (by omega), Nat.sub_self]
      rfl
    · by_cases h2 : n + 1 ≤ i ∧ i < n + 1 + l.length
      · rw [if_pos h2, if_pos (by omega)]
        obtain ⟨k, hk⟩ : ∃ k, i = n + 1 + k := ⟨i - (n + 1), by omega⟩
        subst hk
        have e1 : n + 1 + k - (n + 1) = k := by omega
        have e2 : n + 1 + k - n = k + 1 := by omega
        rw [e1, e2, List.getElem?_cons_succ]
      · rw [if_neg h2, if_neg h, if_neg (by omega)]

/-- The context of a list of numbered variables. -/
def numC (l : List (String × Srt)) : Ctx := fun i => (l[i]?).map Prod.snd

theorem bindC_numbered (ps : List (String × Srt)) : bindC noC ((numbered ps).map Prod.snd) = numC ps := by
  funext i
  rw [numbered_eq, bindC_num]
  simp only [numC, noC, Nat.zero_le, true_and, Nat.zero_add, Nat.sub_zero]
  split
  · rfl
  · rename_i h
    rw [List.getElem?_eq_none (by omega)]; rfl

/-- The elaboration of a text over numbered variables. -/
theorem text_ty {E : Env} {decl : Sg} (hE : DeclOk E decl) {n r es t s G vars st φ st'} (hb : st.bvars = numFrom 0 vars)
    (hn : (vars.map Prod.fst).Nodup) (hG : ∀ x, x ∈ G ↔ x ∈ vars) (hc : Clean E r (vars.map Prod.fst) [] t) (hw : Ws E r G [] t s)
    (h : parse E n r es t st = .ok (φ, st')) :
    HasSrt decl st'.tbl (numC vars) φ (norm r s) ∧ (TblSrt decl st.tbl → TblSrt decl st'.tbl) := by
  have hsc : Sc (extS (numFrom 0 vars) []) [] st.bvars := by rw [hb]; exact Sc.body _ hn
  have g := parse_ty hE n r es t s st _ _ [] G [] φ st' hsc (fun x => names_body _ x) (fun x => (hG x).trans (body_scope _ x)) hc hw h
  refine ⟨g.ty _ fun p hp => ?_, g.tbl⟩
  have := hsc.at hp
  rw [hb, num_get, Option.map_eq_some_iff] at this
  obtain ⟨b, h1, h2⟩ := this
  show (vars[p.2.id]?).map Prod.snd = _
  rw [h1, ← h2]
  rfl

/-! ## Steps -/

/-- The context of the formulas of a step, with the extra variables of an assignment. -/
theorem step_ctx (ps fresh : List (String × Srt)) (i : Nat) (h : i ≠ ps.length) :
    bindC (bindC noC ((numbered ps).map Prod.snd)) ((numFrom (ps.length + 1) fresh).map Prod.snd) i =
      numC (ps ++ [("in", Srt.message)] ++ fresh) i := by
  rw [bindC_num, bindC_numbered]
  simp only [numC]
  by_cases h1 : i < ps.length
  · rw [if_neg (by omega), List.append_assoc, List.getElem?_append_left h1]
  · rw [List.getElem?_append_right (by simp; omega)]
    by_cases h2 : i < ps.length + 1 + fresh.length
    · rw [if_pos (by omega)]; simp
    · rw [if_neg (by omega), List.getElem?_eq_none (by omega), List.getElem?_eq_none (by simp; omega)]

theorem step_text_ty {D : DEnv} {decl : Sg} (hE : DeclOk D.toEnv decl) {n name es t s G ps fresh st φ st'}
    (hd : decl name = some (ps.map Prod.snd, .step)) (hb : st.bvars = numFrom 0 (ps ++ [("in", Srt.message)] ++ fresh))
    (hn : ((ps ++ [("in", Srt.message)] ++ fresh).map Prod.fst).Nodup) (hG : ∀ x, x ∈ G ↔ x ∈ ps ++ [("in", Srt.message)] ++ fresh)
    (hc : Clean D.toEnv .sym ((ps ++ [("in", Srt.message)] ++ fresh).map Prod.fst) [] t) (hw : Ws D.toEnv .sym G [] t s)
    (h : parse D.toEnv n .sym es t st = .ok (φ, st')) :
    HasSrt decl st'.tbl (bindC (bindC noC ((numbered ps).map Prod.snd)) ((numFrom (ps.length + 1) fresh).map Prod.snd))
      ((inputSubst name ps).apply φ) s ∧ (TblSrt decl st.tbl → TblSrt decl st'.tbl) := by
  obtain ⟨h1, h2⟩ := text_ty hE hb hn hG hc hw h
  refine ⟨?_, h2⟩
  have hsc : Sc (extS (numFrom 0 (ps ++ [("in", Srt.message)] ++ fresh)) []) [] st.bvars := by rw [hb]; exact Sc.body _ hn
  have g := parse_good D.toEnv n .sym es t st _ _ [] φ st' hsc (fun x => names_body _ x) hc h
  refine HasSrt.one (so := .message) h1 (fun x hx => ?_) ?_ (fun C hC => ?_) _ fun i hi => step_ctx ps fresh i hi
  · have := g.bnd x hx
    rw [hb, numFrom_length] at this
    simp only [List.length_append, List.length_cons, List.length_nil] at this
    omega
  · simp [numC]
  · refine app1_ty .input (.app (.sym hd) (by simp [numbered]) fun p hp => ?_)
    obtain ⟨i, hi, he⟩ := List.getElem_of_mem hp
    have hp' : ((List.map (fun p => (Fm.var p.2 : Fm PF)) (numbered ps)).zip (ps.map Prod.snd))[i]? = some p := by
      rw [List.getElem?_eq_getElem hi, he]
    obtain ⟨e1, e2⟩ := List.getElem?_zip_eq_some.1 hp'
    rw [List.getElem?_map, numbered_eq, num_get, Option.map_map, Option.map_eq_some_iff] at e1
    obtain ⟨b, hb1, hb2⟩ := e1
    rw [List.getElem?_map, hb1] at e2
    simp only [Option.map_some, Option.some.injEq] at e2
    rw [← hb2, ← e2]
    have hlt := (List.getElem?_eq_some_iff.1 hb1).1
    refine .var ?_
    simp only [Function.comp_apply, Nat.zero_add]
    rw [hC i hlt]
    simp only [numC, List.append_assoc, List.getElem?_append_left hlt, hb1, Option.map_some]

theorem cellArgs_ty {D : DEnv} {decl : Sg} (hE : DeclOk D.toEnv decl) (hNT : D.toEnv.NoTaq) {fuel : Nat} {name : String}
    {ps fresh G : List (String × Srt)} (hd : decl name = some (ps.map Prod.snd, .step))
    (hn : ((ps ++ [("in", Srt.message)] ++ fresh).map Prod.fst).Nodup) (hG : ∀ x, x ∈ G ↔ x ∈ ps ++ [("in", Srt.message)] ++ fresh) :
    ∀ {l : List (Tm × Srt)} {st : St} {x : List (Fm PF) × St},
    st.bvars.take (ps.length + 1 + fresh.length) = numFrom 0 (ps ++ [("in", Srt.message)] ++ fresh) →
    (∀ p ∈ l, Clean D.toEnv .sym ((ps ++ [("in", Srt.message)] ++ fresh).map Prod.fst) [] p.1) →
    (∀ p ∈ l, Ws D.toEnv .sym G [] p.1 p.2) →
    parseCellArgs D.toEnv fuel (ps.length + 1 + fresh.length) (inputSubst name ps) l st = .ok x →
    (∀ p ∈ x.1.zip (l.map Prod.snd), HasSrt decl x.2.tbl
      (bindC (bindC noC ((numbered ps).map Prod.snd)) ((numFrom (ps.length + 1) fresh).map Prod.snd)) p.1 p.2) ∧
    (TblSrt decl st.tbl → TblSrt decl x.2.tbl)
  | [], st, x, hb, _, _, h => by
    simp only [parseCellArgs, Out.ok.injEq] at h; subst h
    exact ⟨by simp, id⟩
  | (t, s) :: l, st, x, hb, hc, hw, h => by
    simp only [parseCellArgs, bind_ok, Out.ok.injEq] at h
    obtain ⟨⟨φ, st1⟩, h1, y, h2, rfl⟩ := h
    obtain ⟨_, lk, g2⟩ := step_text (name := name) (st := st.trunc (ps.length + 1 + fresh.length)) hb hn (hc (t, s) (by simp)) h1
    have hb1 : st1.bvars.take (ps.length + 1 + fresh.length) = numFrom 0 (ps ++ [("in", Srt.message)] ++ fresh) := by
      refine take_append (b := lk) (by rw [g2]; exact congrArg (· ++ lk) hb) ?_
      rw [numFrom_length]; simp; omega
    obtain ⟨a1, a2⟩ := step_text_ty hE hd (st := st.trunc (ps.length + 1 + fresh.length)) hb hn hG (hc (t, s) (by simp)) (hw (t, s) (by simp)) h1
    obtain ⟨_, e2, _, _⟩ := parseCellArgs_good hNT hn hb1 (fun p hp => hc p (by simp [hp])) h2
    obtain ⟨b1, b2⟩ := cellArgs_ty hE hNT hd hn hG hb1 (fun p hp => hc p (by simp [hp])) (fun p hp => hw p (by simp [hp])) h2
    refine ⟨fun p hp => ?_, fun ht => b2 (a2 ht)⟩
    simp only [List.map_cons, List.zip_cons_cons, List.mem_cons] at hp
    rcases hp with rfl | hp
    · exact a1.mono e2
    · exact b1 p hp

theorem fresh_bound {D : DEnv} {a : AssignDecl} {Δ} (h : Bound D (a.fresh.getD []) Δ) : Δ = freshOf D a := bound_sortD h

theorem assign_ty {D : DEnv} {decl : Sg} (hE : DeclOk D.toEnv decl) (hNT : D.toEnv.NoTaq) {fuel : Nat} {name : String}
    {ps : List (String × Srt)} {a : AssignDecl} {st : St} {x : LAssign × St} (hd : decl name = some (ps.map Prod.snd, .step))
    (hn : (stepNames ps).Nodup) (hb : st.bvars.take (ps.length + 1) = withInput ps)
    (hca : ∀ t ∈ a.args, Clean D.toEnv .sym (stepNames ps ++ (freshOf D a).map Prod.fst) [] t)
    (hct : Clean D.toEnv .sym (stepNames ps ++ (freshOf D a).map Prod.fst) [] a.term)
    (hw : AssignWs D (ps ++ [("in", .message)]) a) (h : parseAssign D fuel name ps a st = .ok x) :
    (∃ ss, D.functions.lookup x.1.cell = some (.cell ss) ∧ AssignSrt decl x.2.tbl ((numbered ps).map Prod.snd) ss x.1) ∧
    (TblSrt decl st.tbl → TblSrt decl x.2.tbl) := by
  obtain ⟨Δ, sorts, w1, w2, w3, w4, w5, w6, w7⟩ := hw.ws
  obtain rfl := fresh_bound w1
  obtain ⟨k1, k2, k3⟩ := parseAssign_good hNT hn hb hca hct h
  simp only [parseAssign, bind_ok, Out.ok.injEq] at h
  obtain ⟨v, hv, ss, hs, as, has, c, hcc, rfl⟩ := h
  rw [w4] at hs
  simp only [Option.bind, Cache.cellArgs, Out.ofOption, Out.ok.injEq] at hs
  subst hs
  have hv' : v.2.tbl = st.tbl ∧
      v.2.bvars.take (ps.length + 1 + (freshOf D a).length) = numFrom 0 (ps ++ [("in", Srt.message)] ++ freshOf D a) ∧
      (stepNames ps ++ (freshOf D a).map Prod.fst).Nodup := by
    have hwn : (withInput ps).map Prod.fst = stepNames ps := by
      rw [withInput_eq, numFrom_names]; simp [stepNames]
    cases hf : a.fresh with
    | none =>
      rw [hf] at hv
      simp only [Out.ok.injEq] at hv
      subst hv
      simp only [freshOf, hf, Option.getD_none, List.map_nil, numFrom, List.length_nil, Nat.add_zero, List.append_nil, true_and]
      exact ⟨by rw [hb, withInput_eq], hn⟩
    | some vs =>
      rw [hf] at hv
      obtain ⟨e1, e2, e3, e4⟩ := parseFresh_ok hv
      have hbt : (st.trunc (ps.length + 1)).bvars = withInput ps := hb
      rw [hbt] at e4 e2
      have hfo : freshOf D a = vs.map fun b => (b.1, D.sortD b.2) := by simp only [freshOf, hf, Option.getD_some]
      refine ⟨by rw [e2]; rfl, ?_, ?_⟩
      · rw [e2, numFrom_append, ← withInput_eq, hfo]
        simp only [Nat.zero_add, List.length_append, List.length_cons, List.length_nil]
        apply List.take_of_length_le
        rw [List.length_append, withInput_len, numFrom_length]
        exact Nat.le_refl _
      · rw [hfo, List.map_map]
        refine List.nodup_append.2 ⟨hn, ?_, ?_⟩
        · simpa [Function.comp_def] using e3
        · intro y hy z hz e
          subst e
          obtain ⟨b, hb', rfl⟩ := List.mem_map.1 hz
          exact (e4 b hb').1 (by rw [hwn]; exact hy)
  obtain ⟨hv2, hv3, hv4⟩ := hv'
  have hvf : v.1 = (numFrom (ps.length + 1) (freshOf D a)).map Prod.snd := k1.fresh
  have hvl : v.1.length = (freshOf D a).length := by rw [hvf, List.length_map, numFrom_length]
  rw [hvl] at has hcc
  rw [← names_in] at hv4
  have hG : ∀ x, x ∈ freshOf D a ++ (ps ++ [("in", Srt.message)]) ↔ x ∈ ps ++ [("in", Srt.message)] ++ freshOf D a := by
    intro x; simp only [List.mem_append]; exact or_comm
  have hca' : ∀ p ∈ a.args.zip sorts, Clean D.toEnv .sym ((ps ++ [("in", Srt.message)] ++ freshOf D a).map Prod.fst) [] p.1 :=
    fun p hp => by rw [names_in]; exact hca _ (List.of_mem_zip hp).1
  have hct' : Clean D.toEnv .sym ((ps ++ [("in", Srt.message)] ++ freshOf D a).map Prod.fst) [] a.term := by rw [names_in]; exact hct
  obtain ⟨e1, e2, e3, e4⟩ := parseCellArgs_good hNT hv4 hv3 hca' has
  obtain ⟨t1, t2⟩ := cellArgs_ty hE hNT hd hv4 hG hv3 hca' w6 has
  obtain ⟨u1, u2⟩ := step_text_ty hE hd (st := as.2.trunc (ps.length + 1 + (freshOf D a).length)) e3 hv4 hG hct' w7 hcc
  have i1 := parse_inv D.toEnv hNT fuel _ _ _ _ _ _ hcc
  refine ⟨⟨sorts, w4, ?_, ?_, ?_⟩, fun ht => u2 (t2 (by rw [hv2]; exact ht))⟩
  · simp only [e1, List.length_zip, w5, Nat.min_self]
  · intro p hp
    simp only [hvf]
    have : (a.args.zip sorts).map Prod.snd = sorts := List.map_snd_zip (by omega)
    rw [this] at t1
    exact (t1 p hp).mono i1.pre
  · simp only [hvf]
    exact u1

theorem assigns_ty {D : DEnv} {decl : Sg} (hE : DeclOk D.toEnv decl) (hNT : D.toEnv.NoTaq) {fuel : Nat} {name : String}
    {ps : List (String × Srt)} (hd : decl name = some (ps.map Prod.snd, .step)) (hn : (stepNames ps).Nodup) :
    ∀ {l : List AssignDecl} {st : St} {x : List LAssign × St}, st.bvars.take (ps.length + 1) = withInput ps →
    (∀ a ∈ l, ∀ t ∈ a.args, Clean D.toEnv .sym (stepNames ps ++ (freshOf D a).map Prod.fst) [] t) →
    (∀ a ∈ l, Clean D.toEnv .sym (stepNames ps ++ (freshOf D a).map Prod.fst) [] a.term) →
    (∀ a ∈ l, AssignWs D (ps ++ [("in", .message)]) a) → parseAssigns D fuel name ps l st = .ok x →
    (∀ a ∈ x.1, a.step = name ∧ ∃ ss, D.functions.lookup a.cell = some (.cell ss) ∧ AssignSrt decl x.2.tbl ((numbered ps).map Prod.snd) ss a) ∧
    (TblSrt decl st.tbl → TblSrt decl x.2.tbl)
  | [], st, x, _, _, _, _, h => by
    simp only [parseAssigns, Out.ok.injEq] at h; subst h
    exact ⟨by simp, id⟩
  | a :: l, st, x, hb, hca, hct, hw, h => by
    simp only [parseAssigns, bind_ok, Out.ok.injEq] at h
    obtain ⟨y, h1, z, h2, rfl⟩ := h
    obtain ⟨g1, g2, g3⟩ := parseAssign_good hNT hn hb (hca a (by simp)) (hct a (by simp)) h1
    obtain ⟨t1, t2⟩ := assign_ty hE hNT hd hn hb (hca a (by simp)) (hct a (by simp)) (hw a (by simp)) h1
    obtain ⟨_, g5⟩ := parseAssigns_good hNT hn g3 (fun a ha => hca a (by simp [ha])) (fun a ha => hct a (by simp [ha])) h2
    obtain ⟨u1, u2⟩ := assigns_ty hE hNT hd hn g3 (fun a ha => hca a (by simp [ha])) (fun a ha => hct a (by simp [ha])) (fun a ha => hw a (by simp [ha])) h2
    refine ⟨fun b hb' => ?_, fun ht => u2 (t2 ht)⟩
    rcases List.mem_cons.1 hb' with rfl | hb'
    · obtain ⟨ss, s1, s2⟩ := t1
      exact ⟨g1.step, ss, s1, s2.arity, fun p hp => (s2.args p hp).mono g5, s2.content.mono g5⟩
    · exact u1 b hb'

theorem StepSrt.mono {decl tbl tbl' s} (h : StepSrt decl tbl s) (hp : tbl <+: tbl') : StepSrt decl tbl' s :=
  ⟨h.message.mono hp, h.condition.mono hp⟩

theorem AssignSrt.mono {decl tbl tbl' vs ss s} (h : AssignSrt decl tbl vs ss s) (hp : tbl <+: tbl') : AssignSrt decl tbl' vs ss s :=
  ⟨h.arity, fun p hp' => (h.args p hp').mono hp, h.content.mono hp⟩

theorem OrderSrt.mono {decl tbl tbl' s} (h : OrderSrt decl tbl s) (hp : tbl <+: tbl') : OrderSrt decl tbl' s :=
  ⟨h.guard.mono hp, h.fst.mono hp, h.snd.mono hp⟩

theorem step_ty {D : DEnv} {decl : Sg} (hE : DeclOk D.toEnv decl) (hNT : D.toEnv.NoTaq) {fuel : Nat} {name : String}
    {ps : List (String × Srt)} {d : StepDecl} {st : St} {x : (LStep × List LAssign) × St} (hd : decl name = some (ps.map Prod.snd, .step))
    (hc : StepClean D ps d) (hw : StepWs D ps d) (h : parseStep D fuel name ps d st = .ok x) :
    StepSrt decl x.2.tbl x.1.1 ∧ (∀ a ∈ x.1.2, a.step = x.1.1.name ∧ ∃ ss, D.functions.lookup a.cell = some (.cell ss) ∧
      AssignSrt decl x.2.tbl x.1.1.vars ss a) ∧ (TblSrt decl st.tbl → TblSrt decl x.2.tbl) := by
  simp only [parseStep, bind_ok, Out.ok.injEq] at h
  obtain ⟨⟨m, s1⟩, h1, ⟨c, s2⟩, h2, y, h3, e⟩ := h
  subst e
  have hn : ((ps ++ [("in", Srt.message)] ++ []).map Prod.fst).Nodup := by simpa [stepNames] using hc.names
  have hL : (ps ++ [("in", Srt.message)] ++ []).map Prod.fst = stepNames ps := by simp [stepNames]
  have hG : ∀ x, x ∈ ps ++ [("in", Srt.message)] ↔ x ∈ ps ++ [("in", Srt.message)] ++ [] := by simp
  have b0 : ({ st with bvars := withInput ps } : St).bvars = numFrom 0 (ps ++ [("in", Srt.message)] ++ []) := by
    rw [List.append_nil]; exact withInput_eq ps
  obtain ⟨_, lk1, b1⟩ := step_text (name := name) (ps := ps) (fresh := []) (st := { st with bvars := withInput ps }) b0 hn (by rw [hL]; exact hc.message) h1
  have t1 : s1.bvars.take (ps.length + 1) = withInput ps := take_append b1 (withInput_len ps)
  have b1' : (s1.trunc (ps.length + 1)).bvars = numFrom 0 (ps ++ [("in", Srt.message)] ++ []) := by
    rw [List.append_nil]; exact t1.trans (withInput_eq ps)
  obtain ⟨_, lk2, b2⟩ := step_text (name := name) (ps := ps) (fresh := []) (st := s1.trunc (ps.length + 1)) b1' hn (by rw [hL]; exact hc.condition) h2
  have t2 : s2.bvars.take (ps.length + 1) = withInput ps := take_append (b2.trans (congrArg (· ++ lk2) t1)) (withInput_len ps)
  have t3 : (s2.trunc (ps.length + 1)).bvars.take (ps.length + 1) = withInput ps := by
    simp only [St.trunc, t2]
    exact List.take_of_length_le (by rw [withInput_len]; exact Nat.le_refl _)
  obtain ⟨m1, m2⟩ := step_text_ty hE hd (fresh := []) b0 hn hG (by rw [hL]; exact hc.message) hw.message h1
  obtain ⟨c1, c2⟩ := step_text_ty hE hd (fresh := []) b1' hn hG (by rw [hL]; exact hc.condition) hw.condition h2
  obtain ⟨_, g5⟩ := parseAssigns_good hNT hc.names t3 hc.args hc.terms h3
  obtain ⟨a1, a2⟩ := assigns_ty hE hNT hd hc.names t3 hc.args hc.terms hw.assigns h3
  have i2 := parse_inv D.toEnv hNT fuel _ _ _ _ _ _ h2
  have p1 : s1.tbl <+: y.2.tbl := i2.pre.trans g5
  have p2 : s2.tbl <+: y.2.tbl := g5
  exact ⟨⟨m1.mono p1, c1.mono p2⟩, a1, fun ht => a2 (c2 (m2 ht))⟩

theorem steps_ty {D : DEnv} {decl : Sg} (hE : DeclOk D.toEnv decl) (hNT : D.toEnv.NoTaq) {fuel : Nat} :
    ∀ {fs : List (String × Cache)} {st : St} {x : (List LStep × List LAssign) × St},
    (∀ p ∈ stepsOf fs, decl p.1 = some (p.2.1.map Prod.snd, .step) ∧ StepClean D p.2.1 p.2.2 ∧ StepWs D p.2.1 p.2.2) →
    parseSteps D fuel fs st = .ok x →
    (∀ s ∈ x.1.1, StepSrt decl x.2.tbl s) ∧ (∀ a ∈ x.1.2, ∃ s ∈ x.1.1, s.name = a.step ∧ ∃ ss, D.functions.lookup a.cell = some (.cell ss) ∧
      AssignSrt decl x.2.tbl s.vars ss a) ∧ (TblSrt decl st.tbl → TblSrt decl x.2.tbl)
  | [], st, x, _, h => by
    simp only [parseSteps, Out.ok.injEq] at h; subst h
    exact ⟨by simp, by simp, id⟩
  | (n, .step ps d) :: fs, st, x, hs, h => by
    simp only [parseSteps, bind_ok, Out.ok.injEq] at h
    obtain ⟨y, h1, z, h2, rfl⟩ := h
    obtain ⟨p1, _⟩ := parseSteps_good hNT h2
    obtain ⟨k1, k2, k3⟩ := hs (n, ps, d) (by simp [stepsOf])
    obtain ⟨a1, a2, a3⟩ := step_ty hE hNT k1 k2 k3 h1
    obtain ⟨b1, b2, b3⟩ := steps_ty hE hNT (fs := fs) (fun p hp => hs p (by rw [stepsOf_cons]; simp [hp])) h2
    refine ⟨fun s hs' => ?_, fun a ha => ?_, fun ht => b3 (a3 ht)⟩
    · rcases List.mem_cons.1 hs' with rfl | hs'
      · exact a1.mono p1
      · exact b1 s hs'
    · rcases List.mem_append.1 ha with ha | ha
      · obtain ⟨e, ss, s1, s2⟩ := a2 a ha
        exact ⟨_, List.mem_cons_self, e.symm, ss, s1, s2.mono p1⟩
      · obtain ⟨s, hs1, hs2⟩ := b2 a ha
        exact ⟨s, List.mem_cons_of_mem _ hs1, hs2⟩
  | (n, .func i) :: fs, st, x, hs, h => steps_ty hE hNT (fs := fs) (fun p hp => hs p (by rw [stepsOf_cons]; simp [hp])) h
  | (n, .cell a) :: fs, st, x, hs, h => steps_ty hE hNT (fs := fs) (fun p hp => hs p (by rw [stepsOf_cons]; simp [hp])) h

/-! ## Formulas and orders -/

theorem numC_nil : numC [] = noC := by funext i; simp [numC, noC]

theorem assert_ty {D : DEnv} {decl : Sg} (hE : DeclOk D.toEnv decl) {fuel t st} {x : Fm PF × St} (hc : Clean D.toEnv .ev [] [] t)
    (hw : FormWs D [] t) (h : parseAssert D.toEnv fuel t st = .ok x) :
    HasSrt decl x.2.tbl noC x.1 .bool ∧ (TblSrt decl st.tbl → TblSrt decl x.2.tbl) := by
  obtain ⟨s, hw, hs⟩ := hw
  obtain ⟨h1, h2⟩ := text_ty (st := { st with bvars := [] }) (vars := []) hE rfl (by simp) (by simp) hc hw h
  rw [numC_nil, ← norm_same hs] at h1
  exact ⟨h1, h2⟩

theorem asserts_ty {D : DEnv} {decl : Sg} (hE : DeclOk D.toEnv decl) (hNT : D.toEnv.NoTaq) {fuel} : ∀ {l st} {x : List (Fm PF) × St},
    (∀ t ∈ l, Clean D.toEnv .ev [] [] t ∧ FormWs D [] t) → parseAsserts D.toEnv fuel l st = .ok x →
    (∀ φ ∈ x.1, HasSrt decl x.2.tbl noC φ .bool) ∧ (TblSrt decl st.tbl → TblSrt decl x.2.tbl)
  | [], st, x, _, h => by simp only [parseAsserts, Out.ok.injEq] at h; subst h; exact ⟨by simp, id⟩
  | t :: l, st, x, hl, h => by
    simp only [parseAsserts, bind_ok, Out.ok.injEq] at h
    obtain ⟨y, h1, z, h2, rfl⟩ := h
    obtain ⟨p2, _⟩ := parseAsserts_good hNT h2
    obtain ⟨a1, a2⟩ := assert_ty hE (hl t (by simp)).1 (hl t (by simp)).2 h1
    obtain ⟨b1, b2⟩ := asserts_ty hE hNT (fun t ht => hl t (by simp [ht])) h2
    refine ⟨fun φ hφ => ?_, fun ht => b2 (a2 ht)⟩
    rcases List.mem_cons.1 hφ with rfl | hφ
    · exact a1.mono p2
    · exact b1 φ hφ

theorem order_ty {D : DEnv} {decl : Sg} (hE : DeclOk D.toEnv decl) (hNT : D.toEnv.NoTaq) {fuel o st} {x : LOrder × St} (hc : OrderClean D o)
    (hw : OrderWs D o) (h : parseOrderDecl D fuel o st = .ok x) :
    OrderSrt decl x.2.tbl x.1 ∧ (TblSrt decl st.tbl → TblSrt decl x.2.tbl) := by
  obtain ⟨Δ, w1, w2, w3, w4, w5⟩ := hw.ws
  obtain rfl := bound_sortD w1
  simp only [parseOrderDecl, bind_ok, sortList_ok, Out.ok.injEq] at h
  obtain ⟨_, ⟨_, rfl⟩, ⟨g, s1⟩, h1, ⟨a, s2⟩, h2, ⟨b, s3⟩, h3, rfl⟩ := h
  rw [zip_sorts] at *
  have hov : (o.vars.map fun b => (b.1, D.sortD b.2)) = orderVars D o := rfl
  rw [hov] at *
  have hnm : (orderVars D o).map Prod.fst = o.vars.map Prod.fst := by simp [orderVars]
  have p2 : s1.tbl <+: s2.tbl := (parse_inv D.toEnv hNT fuel _ _ _ _ _ _ h2).pre
  have p3 : s2.tbl <+: s3.tbl := (parse_inv D.toEnv hNT fuel _ _ _ _ _ _ h3).pre
  have k1 : (∃ lk, s1.bvars = numbered (orderVars D o) ++ lk) ∧ HasSrt decl s1.tbl (numC (orderVars D o)) g .bool ∧
      (TblSrt decl st.tbl → TblSrt decl s1.tbl) := by
    cases hg : o.guard with
    | none =>
      rw [hg] at h1
      simp only [parseGuard, Out.ok.injEq, Prod.mk.injEq] at h1
      obtain ⟨rfl, rfl⟩ := h1
      exact ⟨⟨[], by simp [orderVars]⟩, .app .tru rfl (by simp), id⟩
    | some t =>
      rw [hg] at h1
      obtain ⟨_, lk, b1⟩ := order_text (o := o) (st := { st with bvars := numbered (orderVars D o) }) (numbered_eq _) hc.names (hc.guard t hg) h1
      obtain ⟨so, hws, hsm⟩ := w3 t hg
      obtain ⟨q1, q2⟩ := text_ty (st := { st with bvars := numbered (orderVars D o) }) hE (numbered_eq _) w2 (fun _ => Iff.rfl)
        (by rw [hnm]; exact hc.guard t hg) hws h1
      rw [← norm_same hsm] at q1
      exact ⟨⟨lk, b1⟩, q1, q2⟩
  obtain ⟨⟨lk1, b1⟩, k1, k2⟩ := k1
  have t1 : (s1.trunc (numbered (orderVars D o)).length).bvars = numbered (orderVars D o) := take_append b1 rfl
  obtain ⟨_, lk2, b2⟩ := order_text (o := o) (t1.trans (numbered_eq _)) hc.names hc.t1 h2
  have t2 : (s2.trunc (numbered (orderVars D o)).length).bvars = numbered (orderVars D o) :=
    take_append (b2.trans (congrArg (· ++ lk2) t1)) rfl
  obtain ⟨q1, q2⟩ := text_ty hE (t1.trans (numbered_eq _)) w2 (fun _ => Iff.rfl) (by rw [hnm]; exact hc.t1) w4 h2
  obtain ⟨r1, r2⟩ := text_ty hE (t2.trans (numbered_eq _)) w2 (fun _ => Iff.rfl) (by rw [hnm]; exact hc.t2) w5 h3
  have q1 : HasSrt decl s3.tbl (numC (orderVars D o)) a .step := q1.mono p3
  have r1 : HasSrt decl s3.tbl (numC (orderVars D o)) b .step := r1
  have k1 := k1.mono (p2.trans p3)
  refine ⟨?_, fun ht => r2 (q2 (k2 ht))⟩
  have e : ∀ o' : LOrder, o'.vars = (numbered (orderVars D o)).map Prod.snd → bindC noC o'.vars = numC (orderVars D o) := fun o' h => by
    rw [h, bindC_numbered]
  cases hop : o.op <;> simp only [mkOrder, hop] <;> constructor <;> (rw [e _ rfl]; assumption)

theorem orders_ty {D : DEnv} {decl : Sg} (hE : DeclOk D.toEnv decl) (hNT : D.toEnv.NoTaq) {fuel} : ∀ {l st} {x : List LOrder × St},
    (∀ o ∈ l, OrderClean D o ∧ OrderWs D o) → parseOrders D fuel l st = .ok x →
    (∀ o ∈ x.1, OrderSrt decl x.2.tbl o) ∧ (TblSrt decl st.tbl → TblSrt decl x.2.tbl)
  | [], st, x, _, h => by simp only [parseOrders, Out.ok.injEq] at h; subst h; exact ⟨by simp, id⟩
  | t :: l, st, x, hl, h => by
    simp only [parseOrders, bind_ok, Out.ok.injEq] at h
    obtain ⟨y, h1, z, h2, rfl⟩ := h
    obtain ⟨p2, _⟩ := parseOrders_good hNT h2
    obtain ⟨a1, a2⟩ := order_ty hE hNT (hl t (by simp)).1 (hl t (by simp)).2 h1
    obtain ⟨b1, b2⟩ := orders_ty hE hNT (fun t ht => hl t (by simp [ht])) h2
    refine ⟨fun φ hφ => ?_, fun ht => b2 (a2 ht)⟩
    rcases List.mem_cons.1 hφ with rfl | hφ
    · exact a1.mono p2
    · exact b1 φ hφ

theorem mkCells_mem {as : List LAssign} : ∀ {fs : List (String × Cache)} {c : LCell}, c ∈ mkCells as fs →
    (c.name, Cache.cell c.args) ∈ fs ∧ ∀ a ∈ c.assigns, a ∈ as ∧ a.cell = c.name
  | [], _, h => by cases h
  | (n, .cell a) :: fs, c, h => by
    simp only [mkCells, List.mem_cons] at h
    rcases h with rfl | h
    · refine ⟨List.mem_cons_self, fun x hx => ?_⟩
      simp only [List.mem_filter, beq_iff_eq] at hx
      exact hx
    · exact ⟨List.mem_cons_of_mem _ (mkCells_mem h).1, (mkCells_mem h).2⟩
  | (n, .func i) :: fs, c, h => ⟨List.mem_cons_of_mem _ (mkCells_mem (fs := fs) h).1, (mkCells_mem (fs := fs) h).2⟩
  | (n, .step ps d) :: fs, c, h => ⟨List.mem_cons_of_mem _ (mkCells_mem (fs := fs) h).1, (mkCells_mem (fs := fs) h).2⟩

theorem init_clean (D : DEnv) : StepClean D [] initDecl where
  names := by simp [stepNames]
  message := .cvarFun (by simp [stepNames]) (by simp)
  condition := .cvarFun (by simp [stepNames]) (by simp)
  args := by simp [initDecl]
  terms := by simp [initDecl]

theorem declared_sg {D : DEnv} {l : List Decl} (h : FileOk D l) {p : String × List (String × Srt) × StepDecl} (hp : p ∈ declaredSteps D l) :
    (fileEnv D l).sg p.1 = some (p.2.1.map Prod.snd, .step) := by
  have : (fileEnv D l).functions.lookup p.1 = some (.step p.2.1 p.2.2) := by
    refine lookup_new h ?_
    simp only [declaredSteps, List.mem_append, List.mem_map] at hp
    rcases hp with ⟨d, hd, rfl⟩ | ⟨n, hn, rfl⟩
    · obtain ⟨x, hx, e⟩ := List.mem_filterMap.1 hd
      cases x <;> simp only [Option.some.injEq, reduceCtorEq] at e
      subst e
      exact List.mem_append_left _ (List.mem_filterMap.2 ⟨_, hx, rfl⟩)
    · exact List.mem_append_right _ (List.mem_map.2 ⟨n, hn, rfl⟩)
  simp only [DEnv.sg, this]

/-! ## The property -/

/-- **C83 (terms).** The formula made of a clean and well-sorted term, over parameters of given sorts, is well sorted: it has the sort of
the term (in a formula, that of its value), and the functions created for its quantifiers and `find`s are well sorted. -/
theorem C83_term_partial (E : Env) (decl : Sg) (hE : DeclOk E decl) (r : Realm) (ps : List (String × Srt)) (t : Tm) (s : Srt) (es : Px)
    (n : Nat) (st st' : St) (φ : Fm PF) (hp : (names ps).Nodup) (hc : Clean E r (names ps) [] t) (hw : Ws E r ps [] t s)
    (ht : TblSrt decl st.tbl) (h : parse E n r es t { st with bvars := numbered ps } = .ok (φ, st')) :
    HasSrt decl st'.tbl (bindC noC ((numbered ps).map Prod.snd)) φ (norm r s) ∧ TblSrt decl st'.tbl := by
  obtain ⟨h1, h2⟩ := text_ty (st := { st with bvars := numbered ps }) hE (numbered_eq ps) hp (fun _ => Iff.rfl) hc hw h
  rw [bindC_numbered]
  exact ⟨h1, h2 ht⟩

/-- The problem of an accepted file is well sorted, over any declarations that have the functions of the file. -/
theorem prob_srt (ord : List (String × Cache) → List (String × Cache)) (hord : ∀ l, (ord l).Perm l) (ig sh : Bool) (fuel : Nat)
    (l : List Decl) (P : LProblem) (hw : FileWs (env0 sh) l) (hc : FileClean (env0 sh) l) (decl : Sg) (hdecl : DeclOk (fileEnv (env0 sh) l).toEnv decl)
    (hst : FileOk (env0 sh) l → ∀ p ∈ declaredSteps (env0 sh) l, decl p.1 = some (p.2.1.map Prod.snd, .step))
    (h : load ord fuel ig (env0 sh) l = .ok P) : ProbSrt decl P := by
  have hD : (env0 sh).Base := env0_base sh
  simp only [load, bind_ok] at h
  obtain ⟨D1, h1, ⟨F, q⟩, h2, ss, h3, as, h4, qq, h5, cs, h6, ls, h7, os, h8, h9⟩ := h
  have hacc : (declareSorts l (env0 sh)).bind (fetchAll l) = .ok (F, q) := bind_ok.2 ⟨D1, h1, h2⟩
  obtain ⟨hok, e1, e2, e3, e4, e5, e6, -⟩ := (C24_accepted_iff (env0 sh) l F q).1 hacc
  have hNT : F.env.toEnv.NoTaq := by rw [e1]; exact fileEnv_notaq hD l
  have hE : DeclOk F.env.toEnv decl := by rw [e1]; exact hdecl
  have hperm : (stepsOf (ord F.env.functions)).Perm (declaredSteps (env0 sh) l) := by
    rw [← stepsOf_fileEnv hD, e1]; exact ((hord _).filterMap _)
  have hsteps : ∀ p ∈ stepsOf (ord F.env.functions), decl p.1 = some (p.2.1.map Prod.snd, .step) ∧
      StepClean F.env p.2.1 p.2.2 ∧ StepWs F.env p.2.1 p.2.2 := by
    intro p hp
    have hp := hperm.mem_iff.1 hp
    refine ⟨hst hok p hp, ?_⟩
    rw [e1]
    simp only [declaredSteps, List.mem_append, List.mem_map] at hp
    rcases hp with ⟨d, hd, rfl⟩ | ⟨n, hn, rfl⟩
    · obtain ⟨x, hx, e⟩ := List.mem_filterMap.1 hd
      cases x <;> simp only [Option.some.injEq, reduceCtorEq] at e
      subst e
      obtain ⟨ps, b, w⟩ := hw.steps _ hx
      obtain rfl := bound_sortD b
      exact ⟨hc.steps _ hx, w⟩
    · exact ⟨init_clean _, init_ws hok⟩
  obtain ⟨s1, s2, s3⟩ := steps_ty hE hNT hsteps h3
  have hmem : ∀ t, Decl.assertion t ∈ l ∨ Decl.lem t ∈ l ∨ Decl.query t ∈ l → Clean F.env.toEnv .ev [] [] t ∧ FormWs F.env [] t := by
    rw [e1]; exact fun t ht => ⟨hc.texts t ht, hw.texts t ht⟩
  have hA : ∀ t ∈ F.assertions, Decl.assertion t ∈ l := by
    rw [e2]
    intro t ht
    obtain ⟨x, hx, e⟩ := List.mem_filterMap.1 ht
    cases x <;> simp only [Option.some.injEq, reduceCtorEq] at e
    subst e; exact hx
  have hL : ∀ t ∈ F.lemmas, Decl.lem t ∈ l := by
    rw [e3]
    intro t ht
    obtain ⟨x, hx, e⟩ := List.mem_filterMap.1 ht
    cases x <;> simp only [Option.some.injEq, reduceCtorEq] at e
    subst e; exact hx
  have hO : ∀ t ∈ F.orders, Decl.order t ∈ l := by
    rw [e4]
    intro t ht
    obtain ⟨x, hx, e⟩ := List.mem_filterMap.1 ht
    cases x <;> simp only [Option.some.injEq, reduceCtorEq] at e
    subst e; exact hx
  have hQ : Decl.query q ∈ l := by
    have : q ∈ queriesOf l := by rw [e6]; simp
    obtain ⟨x, hx, e⟩ := List.mem_filterMap.1 this
    cases x <;> simp only [Option.some.injEq, reduceCtorEq] at e
    subst e; exact hx
  obtain ⟨a1, a2⟩ := asserts_ty hE hNT (fun t ht => hmem t (.inl (hA t ht))) h4
  obtain ⟨p4, _⟩ := parseAsserts_good hNT h4
  obtain ⟨p5, _⟩ := parseAssert_good hNT h5
  obtain ⟨b1, b2⟩ := assert_ty hE (hmem q (.inr (.inr hQ))).1 (hmem q (.inr (.inr hQ))).2 h5
  have k7 : qq.2.tbl <+: ls.2.tbl ∧ (∀ φ ∈ ls.1, HasSrt decl ls.2.tbl noC φ .bool) ∧
      (TblSrt decl qq.2.tbl → TblSrt decl ls.2.tbl) := by
    cases ig
    · simp only [Bool.false_eq_true, if_false] at h7
      exact ⟨(parseAsserts_good hNT h7).1, asserts_ty hE hNT (fun t ht => hmem t (.inr (.inl (hL t ht)))) h7⟩
    · simp only [if_true, Out.ok.injEq] at h7
      subst h7
      exact ⟨List.prefix_refl _, by simp, id⟩
  obtain ⟨p7, c1, c2⟩ := k7
  obtain ⟨p8, _⟩ := parseOrders_good hNT h8
  obtain ⟨d1, d2⟩ := orders_ty hE hNT (fun o ho => by rw [e1]; exact ⟨hc.orders o (hO o ho), hw.orders o (hO o ho)⟩) h8
  cases hsw : swapInit ss.1.1 with
  | none => rw [hsw] at h9; cases h9
  | some steps =>
    rw [hsw] at h9
    simp only [Out.ok.injEq] at h9
    subst h9
    obtain ⟨hsp, _⟩ := swapInit_ok hsw
    have p48 := p4.trans (p5.trans (p7.trans p8))
    refine ⟨d2 (c2 (b2 (a2 (s3 (by intro q hq; cases hq))))), fun s hs => (s1 s (hsp.mem_iff.1 hs)).mono p48, fun c hcm a ha => ?_, d1,
      fun φ hφ => (a1 φ hφ).mono (p5.trans (p7.trans p8)), fun φ hφ => (c1 φ hφ).mono p8, b1.mono (p7.trans p8)⟩
    obtain ⟨m1, m2⟩ := mkCells_mem hcm
    obtain ⟨m3, m4⟩ := m2 a ha
    obtain ⟨s, hs, hn, sorts, hl, hsrt⟩ := s2 a m3
    refine ⟨s, hsp.mem_iff.2 hs, hn, ?_⟩
    have m1 := (hord _).mem_iff.1 m1
    rw [e1, fileEnv_functions, List.mem_append] at m1
    rcases m1 with m1 | m1
    · obtain ⟨i, hi, _⟩ := hD _ m1
      cases hi
    · have := lookup_new hok m1
      rw [e1, m4, this] at hl
      simp only [Option.some.injEq, Cache.cell.injEq] at hl
      rw [hl]
      exact hsrt.mono p48

/-- **C83.** The problem made of a well-sorted file with clean texts is well sorted, for the sorts the file declares: messages of steps and
contents of cells are messages, conditions are conditions, the arguments of cells have the sorts of their parameters, assertions,
lemmas and the query are closed formulas, orders are between steps under a formula; and so are the functions created for quantifiers
and `find`s. -/
theorem C83_file_partial (ord : List (String × Cache) → List (String × Cache)) (hord : ∀ l, (ord l).Perm l) (ig sh : Bool) (fuel : Nat)
    (l : List Decl) (P : LProblem) (hw : FileWs (env0 sh) l) (hc : FileClean (env0 sh) l)
    (h : load ord fuel ig (env0 sh) l = .ok P) : ProbSrt (fileEnv (env0 sh) l).sg P :=
  prob_srt ord hord ig sh fuel l P hw hc _ (declOk_file sh l) (fun hok _ hp => declared_sg hok hp) h

/-- **C83 (files).** A well-sorted file with clean texts is made into a well-sorted problem. -/
theorem C83_accepted_partial (ord : List (String × Cache) → List (String × Cache)) (hord : ∀ l, (ord l).Perm l) (ig sh : Bool) (l : List Decl)
    (hw : FileWs (env0 sh) l) (hc : FileClean (env0 sh) l) :
    ∃ P N, (∀ n, N ≤ n → load ord n ig (env0 sh) l = .ok P) ∧ ProbSrt (fileEnv (env0 sh) l).sg P := by
  obtain ⟨P, N, h⟩ := C82_accepted ord hord ig sh l hw
  exact ⟨P, N, h, C83_file_partial ord hord ig sh N l P hw hc (h N (Nat.le_refl _))⟩

/-! ## A file -/

theorem ex_happens_clean {L : List String} {t : Tm} (h : Clean exFE.toEnv .ev L [] t) : Clean exFE.toEnv .ev L [] (.app "happens" [t]) :=
  .app (i := ⟨.sym "happens", .fixed [.step] .bool, false⟩) rfl rfl (by simp [RealmsOk, FSig.args, FSig.realm, realmOf, argRealm]) (.cons h .nil)

/-- The file of `LoadMain` is clean. -/
theorem exFile_clean : FileClean (env0 true) exFile where
  texts t ht := by
    simp only [exFile, List.mem_cons, List.not_mem_nil, reduceCtorEq, or_false, false_or, Decl.assertion.injEq, Decl.lem.injEq, Decl.query.injEq] at ht
    rcases ht with rfl | rfl | rfl
    · exact ex_happens_clean (.cvarFun (by simp) (by simp))
    · exact ex_happens_clean (.cvarFun (by simp) (by simp))
    · exact .quant (fun _ => ⟨by simp, by simp⟩) (ex_happens_clean (.app (i := ⟨.sym "s", .fixed [.user 6] .step, false⟩) rfl rfl
        (by simp [RealmsOk, FSig.args, FSig.realm, realmOf, argRealm]) (.cons (.cvarVar (by simp)) .nil)))
  steps d hd := by
    simp only [exFile, List.mem_cons, List.not_mem_nil, reduceCtorEq, or_false, false_or, Decl.step.injEq] at hd
    subst hd
    exact exStep_clean
  orders o ho := by
    simp only [exFile, List.mem_cons, List.not_mem_nil, reduceCtorEq, or_false, false_or, Decl.order.injEq] at ho
    subst ho
    exact exOrder_clean

example : ∃ P N, (∀ n, N ≤ n → load List.reverse n false (env0 true) exFile = .ok P) ∧ ProbSrt (fileEnv (env0 true) exFile).sg P :=
  C83_accepted_partial _ (fun l => l.reverse_perm) false true _ exFile_ws exFile_clean

/-! ## What is accepted and ill sorted -/

theorem sg_init : exFE.sg "init" = some ([], .step) := by with_unfolding_all rfl
theorem sg_happens : exFE.sg "happens" = some ([.step], .bool) := by with_unfolding_all rfl

/-- **C83, without the hypothesis (equalities).** The query `init = happens(init)` is accepted, and its formula is an equality between a step
and a Boolean, which is not well sorted: the two sides of an equality are elaborated without being compared. -/
theorem C83_equality_counterexample : ∃ φ st', parseAssert exFE.toEnv 6 (.infx .eq [.cvar "init", .app "happens" [.cvar "init"]]) ⟨[], [], []⟩ =
    .ok (φ, st') ∧ ∀ tbl C s, ¬ HasSrt exFE.sg tbl C φ s := by
  refine ⟨.app .eq [.app (.sym "init") [], .app (.sym "happens") [.app (.sym "init") []]], _, by with_unfolding_all rfl, ?_⟩
  intro tbl C s h
  cases h with
  | app h1 _ h3 =>
    cases h1 with
    | @eq so =>
      have a := h3 (.app (.sym "init") [], so) (by simp)
      have b := h3 (.app (.sym "happens") [.app (.sym "init") []], so) (by simp)
      cases a with
      | app a1 _ _ =>
        cases a1 with
        | sym a1 =>
          rw [sg_init] at a1
          cases a1
          cases b with
          | app b1 _ _ =>
            cases b1 with
            | sym b1 => rw [sg_happens] at b1; cases b1

/-- **C83, without the hypothesis (`let`).** The query `let x: Message = empty in x = x` is accepted, and its formula evaluates twice: the
definition is evaluated, the variable keeps the sort it was declared with and its occurrences are evaluated again. -/
theorem C83_let_counterexample : ∃ φ st', parseAssert exFE.toEnv 6 (.letin ("x", "Message") (.cvar "empty") (.infx .eq [.cvar "x", .cvar "x"]))
    ⟨[], [], []⟩ = .ok (φ, st') ∧ ∀ tbl C s, ¬ HasSrt exFE.sg tbl C φ s := by
  refine ⟨.app .eq [.app .evalMsg [.app .evalMsg [.app (.sym "empty") []]], .app .evalMsg [.app .evalMsg [.app (.sym "empty") []]]], _,
    by with_unfolding_all rfl, ?_⟩
  intro tbl C s h
  cases h with
  | app h1 _ h3 =>
    cases h1 with
    | @eq so =>
      have a := h3 (.app .evalMsg [.app .evalMsg [.app (.sym "empty") []]], so) (by simp)
      cases a with
      | app a1 _ a3 =>
        cases a1
        have b := a3 (.app .evalMsg [.app (.sym "empty") []], .message) (by simp)
        cases b with
        | app b1 _ _ => cases b1

end Prs
end CV
