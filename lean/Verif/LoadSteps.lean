import Verif.LoadProps
/-
Properties C54 and C55: the steps, assignments and orders of a loaded file.
-/
set_option linter.unusedSimpArgs false
namespace CV
namespace Prs
open Fm

/-! ## Texts inside a step -/

theorem envOf_num {D : Type} (j : D) (ρ : Valn D) : ∀ (l : List (String × Srt)) (n : Nat) (Γ : List (String × Var)),
    envOf (extS (numFrom n l) Γ) ρ = ext j l ((numFrom n l).map fun p => ρ p.2.id) (envOf Γ ρ)
  | [], n, Γ => rfl
  | b :: l, n, Γ => by
    simp only [numFrom, extS, List.map_cons, ext, List.headD_cons, List.tail_cons]
    rw [envOf_num j ρ l]
    rfl

/-- The values of the parameters of a step. -/
def pvals {D : Type} (ps : List (String × Srt)) (ρ : Valn D) : List D := (List.range ps.length).map ρ

theorem pvals_eq {D : Type} (ps : List (String × Srt)) (ρ : Valn D) : (numFrom 0 ps).map (fun p => ρ p.2.id) = pvals ps ρ := by
  have key : ∀ (l : List (String × Srt)) (n : Nat), (numFrom n l).map (fun p => ρ p.2.id) = (List.range' n l.length).map ρ := by
    intro l
    induction l with
    | nil => intro n; rfl
    | cons b l ih => intro n; simp only [numFrom, List.map_cons, List.length_cons, List.range'_succ, ih]
  rw [key, pvals, List.range_eq_range']

/-- SPECIFICATION. The formula `φ` is the meaning of the text `t` in the step `name(ps)`, with `fresh` extra variables:
the parameters have the values of the step's variables, `in` is the input at the step, and the extra
variables the values of the variables that follow; `φ` mentions no other variable. -/
structure TextOk (E : Env) (tbl : List TAQ) (name : String) (ps fresh : List (String × Srt)) (t : Tm) (φ : Fm PF) : Prop where
  free : ∀ v, OccursFree v φ → v.id < ps.length ∨ (ps.length < v.id ∧ v.id ≤ ps.length + fresh.length)
  bound : ∀ v ∈ φ.bound, ps.length + fresh.length < v.id
  sem : ∀ (D : Type) (I : Sem D), I.Ok E → I.Real tbl → ∀ ρ : Valn D, φ.eval I.M ρ = den E I .sym
    (ext I.junk (ps ++ [("in", Srt.message)] ++ fresh)
      (pvals ps ρ ++ [I.M.fn .input [I.M.fn (.sym name) (pvals ps ρ)]] ++
        (List.range fresh.length).map fun i => ρ (ps.length + 1 + i)) []) t

theorem TextOk.mono {E tbl tbl' name ps fresh t φ} (h : TextOk E tbl name ps fresh t φ) (hp : tbl <+: tbl') :
    TextOk E tbl' name ps fresh t φ :=
  ⟨h.free, h.bound, fun D I hI hR ρ => h.sem D I hI (hR.mono hp) ρ⟩

theorem eval_input {D : Type} (M : Str PF D) (ρ : Valn D) (name : String) (ps : List (String × Srt)) :
    eval M ρ (.app .input [.app (.sym name) ((numbered ps).map fun p => .var p.2)]) =
      M.fn .input [M.fn (.sym name) (pvals ps ρ)] := by
  rw [numbered_eq]
  simp only [eval, evals_eq, List.map_cons, List.map_nil, List.map_map]
  rw [← pvals_eq]
  rfl

theorem step_text {D : DEnv} {fuel : Nat} {name : String} {ps fresh : List (String × Srt)} {es : Px} {t : Tm} {st st' : St}
    {φ : Fm PF} (hb : st.bvars = numFrom 0 (ps ++ [("in", Srt.message)] ++ fresh))
    (hn : ((ps ++ [("in", Srt.message)] ++ fresh).map Prod.fst).Nodup)
    (hc : Clean D.toEnv .sym ((ps ++ [("in", Srt.message)] ++ fresh).map Prod.fst) [] t)
    (h : parse D.toEnv fuel .sym es t st = .ok (φ, st')) :
    TextOk D.toEnv st'.tbl name ps fresh t ((inputSubst name ps).apply φ) ∧ ∃ lk, st'.bvars = st.bvars ++ lk := by
  have hsc : Sc (extS (numFrom 0 (ps ++ [("in", Srt.message)] ++ fresh)) []) [] st.bvars := by rw [hb]; exact Sc.body _ hn
  have g := parse_good D.toEnv fuel .sym es t st _ _ [] φ st' hsc (fun x => names_body _ x) hc h
  obtain ⟨lk, hlk, -⟩ := g.bv
  have hlen : st.bvars.length = ps.length + 1 + fresh.length := by
    rw [hb, numFrom_length]; simp; omega
  have hbd : ∀ v ∈ φ.bound, ps.length + 1 + fresh.length ≤ v.id := fun v hv => hlen ▸ g.bnd v hv
  have hin : ∀ w : Var, OccursFree w (.app .input [.app (.sym name) ((numbered ps).map fun p => .var p.2)] : Fm PF) → w.id < ps.length := by
    intro w hw
    obtain ⟨a, ha, hw⟩ := occ_app hw
    simp only [List.mem_cons, List.not_mem_nil, or_false] at ha
    subst ha
    have hw' : OccursFree w (.app (.sym name) (((numbered ps).map Prod.snd).map .var) : Fm PF) := by
      simpa [List.map_map, Function.comp_def] using hw
    have := occ_vars hw'
    rw [numbered_eq] at this
    obtain ⟨p, hp, rfl⟩ := List.mem_map.1 this
    have := (numFrom_ge _ _ p hp).2
    omega
  refine ⟨⟨?_, ?_, ?_⟩, lk, hlk⟩
  · intro v hv
    obtain ⟨w, hw, hv⟩ := occ_apply _ v φ (fun x hx w e => by
      have := hbd x hx
      simp only [inputSubst, Subst.oneVar]
      rw [if_neg (by omega)]) hv
    simp only [inputSubst, Subst.oneVar] at hv
    split at hv
    · exact .inl (hin v hv)
    · rename_i hne
      cases hv
      obtain ⟨q, hq, e⟩ := g.free v hw
      rcases (mem_extS _ _ _).1 hq with hq | hq
      · have := (numFrom_ge _ _ q hq).2
        simp only [List.length_append, List.length_cons, List.length_nil] at this
        omega
      · cases hq
  · intro v hv
    rcases bound_apply _ v φ hv with hv | ⟨w, hw, hv⟩
    · have := hbd v hv; omega
    · simp only [inputSubst, Subst.oneVar] at hv
      split at hv
      · obtain ⟨a, ha, hv⟩ := bound_app hv
        simp only [List.mem_cons, List.not_mem_nil, or_false] at ha
        subst ha
        have : (Fm.app (PF.sym name) (((numbered ps).map Prod.snd).map Fm.var)).bound = [] := bound_vars
        simp only [List.map_map, Function.comp_def] at this
        rw [this] at hv; cases hv
      · cases hv
  · intro Dm I hI hR ρ
    let inp := I.M.fn .input [I.M.fn (.sym name) (pvals ps ρ)]
    have e : eval I.M ρ ((inputSubst name ps).apply φ) = eval I.M (ρ.set ps.length inp) φ := by
      apply eval_apply
      · intro x hx v hv
        have hx := hbd x hx
        simp only [inputSubst, Subst.oneVar]
        constructor
        · intro e; rw [if_neg (by omega)]
        · intro hne w hw
          split at hw
          · have := hin w (mem_free_occ hw); omega
          · have := mem_free_occ hw
            cases this
            exact hne
      · intro v hv
        simp only [inputSubst, Subst.oneVar]
        by_cases hv : v.id = ps.length
        · rw [if_pos hv, eval_input, hv, Valn.set_self]
        · rw [if_neg hv, Valn.set_ne _ _ hv]; rfl
    rw [e, g.sem Dm I hI hR, envOf_num I.junk]
    simp only [numFrom_append, List.map_append]
    congr 2
    have h1 : (numFrom 0 ps).map (fun p => (ρ.set ps.length inp) p.2.id) = pvals ps ρ := by
      rw [← pvals_eq]
      apply List.map_congr_left
      intro p hp
      have := (numFrom_ge _ _ p hp).2
      exact Valn.set_ne _ _ (by omega)
    have h3 : ∀ (l : List (String × Srt)) (n : Nat), ps.length < n → (numFrom n l).map (fun p => (ρ.set ps.length inp) p.2.id) =
        (List.range l.length).map fun i => ρ (n + i) := by
      intro l
      induction l with
      | nil => intro n _; rfl
      | cons b l ih =>
        intro n hn
        simp only [numFrom, List.map_cons, List.length_cons, List.range_succ_eq_map, Nat.add_zero]
        rw [Valn.set_ne _ _ (by omega), ih (n + 1) (by omega)]
        simp only [List.map_map, Function.comp_def, Nat.succ_eq_add_one, Nat.add_assoc, Nat.add_comm 1]
    have h4 : 0 + (ps ++ [("in", Srt.message)]).length = ps.length + 1 := by simp
    rw [h1, h4, h3 fresh _ (by omega)]
    simp only [numFrom, List.map_cons, List.map_nil, Nat.zero_add, Valn.set_self, inp]

/-! ## Steps -/

theorem take_append {α : Type} {a b l : List α} {n : Nat} (h : l = a ++ b) (hn : a.length = n) : l.take n = a := by
  subst h hn; simp

theorem withInput_len (ps : List (String × Srt)) : (withInput ps).length = ps.length + 1 := by
  rw [withInput_eq, numFrom_length]; simp

/-- The names in scope in a step. -/
def stepNames (ps : List (String × Srt)) : List String := ps.map Prod.fst ++ ["in"]

/-- The extra variables of an assignment with their sorts. -/
def freshOf (D : DEnv) (a : AssignDecl) : List (String × Srt) := (a.fresh.getD []).map fun b => (b.1, D.sortD b.2)

/-- SPECIFICATION. The texts of a step are clean: see `Clean`. -/
structure StepClean (D : DEnv) (ps : List (String × Srt)) (d : StepDecl) : Prop where
  names : (stepNames ps).Nodup
  message : Clean D.toEnv .sym (stepNames ps) [] d.message
  condition : Clean D.toEnv .sym (stepNames ps) [] d.condition
  args : ∀ a ∈ d.assigns, ∀ t ∈ a.args, Clean D.toEnv .sym (stepNames ps ++ (freshOf D a).map Prod.fst) [] t
  terms : ∀ a ∈ d.assigns, Clean D.toEnv .sym (stepNames ps ++ (freshOf D a).map Prod.fst) [] a.term

theorem parseFresh_ok {D : DEnv} : ∀ {vs : List Bnd} {i : Nat} {st : St} {x : List Var × St}, parseFresh D i vs st = .ok x →
    x.1 = (numFrom i (vs.map fun b => (b.1, D.sortD b.2))).map Prod.snd ∧
    x.2 = { st with bvars := st.bvars ++ numFrom i (vs.map fun b => (b.1, D.sortD b.2)) } ∧
    (vs.map Prod.fst).Nodup ∧ (∀ b ∈ vs, b.1 ∉ st.bvars.map Prod.fst ∧ D.contains b.1 = false ∧ b.2 ∈ D.sorts.map Prod.fst)
  | [], i, st, x, h => by
    simp only [parseFresh, Out.ok.injEq] at h; subst h
    simp [numFrom]
  | b :: vs, i, st, x, h => by
    simp only [parseFresh, bind_ok, sort_ok] at h
    obtain ⟨_, ⟨h1, rfl⟩, h⟩ := h
    split at h
    case isTrue => cases h
    case isFalse hc =>
      simp only [bind_ok, Out.ok.injEq] at h
      obtain ⟨y, hy, rfl⟩ := h
      obtain ⟨e1, e2, e3, e4⟩ := parseFresh_ok hy
      simp only [Bool.or_eq_true, not_or, Bool.not_eq_true, List.contains_iff_mem, ← List.elem_eq_contains, List.elem_eq_mem,
        decide_eq_false_iff_not] at hc
      refine ⟨by simp only [e1, List.map_cons, numFrom], by simp only [e2, List.map_cons, numFrom, List.append_assoc, List.singleton_append], ?_, ?_⟩
      · rw [List.map_cons, List.nodup_cons]
        refine ⟨fun hm => ?_, e3⟩
        obtain ⟨b', hb', e⟩ := List.mem_map.1 hm
        have := (e4 b' hb').1
        rw [e] at this
        simp at this
      · intro b' hb'
        rcases List.mem_cons.1 hb' with rfl | hb'
        · exact ⟨hc.2, hc.1, h1⟩
        · have := e4 b' hb'
          refine ⟨fun hm => this.1 ?_, this.2⟩
          simp only [List.map_append, List.mem_append]; exact .inl hm

/-- SPECIFICATION. The assignment `x` says what `a` does in the step `name(ps)`. -/
structure AssignOk (D : DEnv) (tbl : List TAQ) (name : String) (ps : List (String × Srt)) (a : AssignDecl) (x : LAssign) : Prop where
  step : x.step = name
  cell : x.cell = a.cell
  fresh : x.fresh = (numFrom (ps.length + 1) (freshOf D a)).map Prod.snd
  sorts : ∃ ss, D.functions.lookup a.cell = some (.cell ss) ∧ x.args.length = min a.args.length ss.length
  args : ∀ (i : Nat) (t : Tm) (φ : Fm PF), a.args[i]? = some t → x.args[i]? = some φ → TextOk D.toEnv tbl name ps (freshOf D a) t φ
  content : TextOk D.toEnv tbl name ps (freshOf D a) a.term x.content

theorem AssignOk.mono {D tbl tbl' name ps a x} (h : AssignOk D tbl name ps a x) (hp : tbl <+: tbl') : AssignOk D tbl' name ps a x :=
  ⟨h.step, h.cell, h.fresh, h.sorts, fun i t φ h1 h2 => (h.args i t φ h1 h2).mono hp, h.content.mono hp⟩

theorem cellArgs_some {o : Option Cache} {ss : List Srt} (h : o.bind Cache.cellArgs = some ss) : o = some (.cell ss) := by
  cases o with
  | none => cases h
  | some c => cases c <;> simp_all [Cache.cellArgs]

theorem parseCellArgs_good {D : DEnv} (hE : D.toEnv.NoTaq) {fuel : Nat} {name : String} {ps fresh : List (String × Srt)}
    (hn : ((ps ++ [("in", Srt.message)] ++ fresh).map Prod.fst).Nodup) :
    ∀ {l : List (Tm × Srt)} {st : St} {x : List (Fm PF) × St},
    st.bvars.take (ps.length + 1 + fresh.length) = numFrom 0 (ps ++ [("in", Srt.message)] ++ fresh) →
    (∀ p ∈ l, Clean D.toEnv .sym ((ps ++ [("in", Srt.message)] ++ fresh).map Prod.fst) [] p.1) →
    parseCellArgs D.toEnv fuel (ps.length + 1 + fresh.length) (inputSubst name ps) l st = .ok x →
    x.1.length = l.length ∧ st.tbl <+: x.2.tbl ∧
    x.2.bvars.take (ps.length + 1 + fresh.length) = numFrom 0 (ps ++ [("in", Srt.message)] ++ fresh) ∧
    ∀ (i : Nat) (p : Tm × Srt) (φ : Fm PF), l[i]? = some p → x.1[i]? = some φ → TextOk D.toEnv x.2.tbl name ps fresh p.1 φ
  | [], st, x, hb, _, h => by
    simp only [parseCellArgs, Out.ok.injEq] at h; subst h
    exact ⟨rfl, List.prefix_refl _, hb, by simp⟩
  | (t, s) :: l, st, x, hb, hc, h => by
    simp only [parseCellArgs, bind_ok, Out.ok.injEq] at h
    obtain ⟨⟨φ, st1⟩, h1, y, h2, rfl⟩ := h
    obtain ⟨g1, lk, g2⟩ := step_text (name := name) (st := st.trunc (ps.length + 1 + fresh.length)) hb hn (hc (t, s) (by simp)) h1
    have hb1 : st1.bvars.take (ps.length + 1 + fresh.length) = numFrom 0 (ps ++ [("in", Srt.message)] ++ fresh) := by
      refine take_append (b := lk) (by rw [g2]; exact congrArg (· ++ lk) hb) ?_
      rw [numFrom_length]; simp; omega
    obtain ⟨e1, e2, e3, e4⟩ := parseCellArgs_good hE hn hb1 (fun p hp => hc p (by simp [hp])) h2
    have i1 := parse_inv D.toEnv hE fuel _ _ _ _ _ _ h1
    refine ⟨by simp [e1], i1.pre.trans e2, e3, ?_⟩
    intro i p ψ hp hψ
    cases i with
    | zero =>
      simp only [List.getElem?_cons_zero, Option.some.injEq] at hp hψ
      subst hp hψ
      exact g1.mono e2
    | succ i =>
      simp only [List.getElem?_cons_succ] at hp hψ
      exact e4 i p ψ hp hψ

theorem names_in (ps fresh : List (String × Srt)) :
    (ps ++ [("in", Srt.message)] ++ fresh).map Prod.fst = stepNames ps ++ fresh.map Prod.fst := by
  simp [stepNames]

theorem zip_getElem? {α β : Type} : ∀ (l : List α) (m : List β) (i : Nat) (a : α) (b : β), l[i]? = some a → m[i]? = some b → (l.zip m)[i]? = some (a, b)
  | [], _, _, _, _, h, _ => by simp at h
  | _ :: _, [], _, _, _, _, h => by simp at h
  | x :: l, y :: m, 0, a, b, h1, h2 => by simp at h1 h2; simp [h1, h2]
  | x :: l, y :: m, i + 1, a, b, h1, h2 => by
    simp only [List.getElem?_cons_succ] at h1 h2
    simp only [List.zip_cons_cons, List.getElem?_cons_succ]
    exact zip_getElem? l m i a b h1 h2

theorem parseAssign_good {D : DEnv} (hE : D.toEnv.NoTaq) {fuel : Nat} {name : String} {ps : List (String × Srt)} {a : AssignDecl}
    {st : St} {x : LAssign × St} (hn : (stepNames ps).Nodup) (hb : st.bvars.take (ps.length + 1) = withInput ps)
    (hca : ∀ t ∈ a.args, Clean D.toEnv .sym (stepNames ps ++ (freshOf D a).map Prod.fst) [] t)
    (hct : Clean D.toEnv .sym (stepNames ps ++ (freshOf D a).map Prod.fst) [] a.term)
    (h : parseAssign D fuel name ps a st = .ok x) :
    AssignOk D x.2.tbl name ps a x.1 ∧ st.tbl <+: x.2.tbl ∧ x.2.bvars.take (ps.length + 1) = withInput ps := by
  simp only [parseAssign, bind_ok, Out.ok.injEq] at h
  obtain ⟨v, hv, ss, hs, as, has, c, hcc, rfl⟩ := h
  have hs : D.functions.lookup a.cell = some (.cell ss) := by
    apply cellArgs_some
    cases hx : (D.functions.lookup a.cell).bind Cache.cellArgs with
    | none => rw [hx] at hs; cases hs
    | some y => rw [hx] at hs; simp only [Out.ofOption, Out.ok.injEq] at hs; rw [hs]
  have hv' : v.1 = (numFrom (ps.length + 1) (freshOf D a)).map Prod.snd ∧ v.2.tbl = st.tbl ∧
      v.2.bvars.take (ps.length + 1 + (freshOf D a).length) = numFrom 0 (ps ++ [("in", Srt.message)] ++ freshOf D a) ∧
      (stepNames ps ++ (freshOf D a).map Prod.fst).Nodup := by
    cases hf : a.fresh with
    | none =>
      rw [hf] at hv
      simp only [Out.ok.injEq] at hv
      subst hv
      simp only [freshOf, hf, Option.getD_none, List.map_nil, numFrom, List.length_nil, Nat.add_zero, List.append_nil, true_and]
      exact ⟨by rw [hb, withInput_eq], hn⟩
    | some vs =>
      rw [hf] at hv
      obtain ⟨e1, e2, e3, e4⟩ := parseFresh_ok hv
      have hbt : (st.trunc (ps.length + 1)).bvars = withInput ps := hb
      rw [hbt] at e4 e2
      have hfo : freshOf D a = vs.map fun b => (b.1, D.sortD b.2) := by simp only [freshOf, hf, Option.getD_some]
      have hwn : (withInput ps).map Prod.fst = stepNames ps := by
        rw [withInput_eq, numFrom_names]; simp [stepNames]
      refine ⟨by rw [e1, hfo], by rw [e2]; rfl, ?_, ?_⟩
      · rw [e2, numFrom_append, ← withInput_eq, hfo]
        simp only [Nat.zero_add, List.length_append, List.length_cons, List.length_nil]
        apply List.take_of_length_le
        rw [List.length_append, withInput_len, numFrom_length]
        exact Nat.le_refl _
      · rw [hfo, List.map_map]
        refine List.nodup_append.2 ⟨hn, ?_, ?_⟩
        · simpa [Function.comp_def] using e3
        · intro y hy z hz e
          subst e
          obtain ⟨b, hb', rfl⟩ := List.mem_map.1 hz
          exact (e4 b hb').1 (by rw [hwn]; exact hy)
  obtain ⟨hv1, hv2, hv3, hv4⟩ := hv'
  have hvl : v.1.length = (freshOf D a).length := by rw [hv1, List.length_map, numFrom_length]
  rw [hvl] at has hcc
  rw [← names_in] at hv4
  obtain ⟨e1, e2, e3, e4⟩ := parseCellArgs_good hE hv4 hv3 (fun p hp => by rw [names_in]; exact hca _ (List.of_mem_zip hp).1) has
  obtain ⟨g1, lk, g2⟩ := step_text (name := name) (st := as.2.trunc (ps.length + 1 + (freshOf D a).length)) e3 hv4 (by rw [names_in]; exact hct) hcc
  have i1 := parse_inv D.toEnv hE fuel _ _ _ _ _ _ hcc
  refine ⟨⟨rfl, rfl, hv1, ⟨ss, hs, by rw [e1, List.length_zip]⟩, ?_, g1⟩, ?_, ?_⟩
  · intro i t φ ht hφ
    have hlt : i < (a.args.zip ss).length := by rw [← e1]; exact (List.getElem?_eq_some_iff.1 hφ).1
    have hlt2 : i < ss.length := by rw [List.length_zip] at hlt; omega
    exact (e4 i (t, ss[i]) φ (zip_getElem? _ _ _ _ _ ht (List.getElem?_eq_getElem hlt2)) hφ).mono i1.pre
  · rw [← hv2]; exact e2.trans i1.pre
  · have : c.2.bvars = withInput ps ++ (numFrom (ps.length + 1) (freshOf D a) ++ lk) := by
      rw [g2, ← List.append_assoc]
      congr 1
      refine Eq.trans e3 ?_
      rw [numFrom_append, withInput_eq]; simp
    exact take_append this (withInput_len ps)

theorem parseAssigns_good {D : DEnv} (hE : D.toEnv.NoTaq) {fuel : Nat} {name : String} {ps : List (String × Srt)} (hn : (stepNames ps).Nodup) :
    ∀ {l : List AssignDecl} {st : St} {x : List LAssign × St}, st.bvars.take (ps.length + 1) = withInput ps →
    (∀ a ∈ l, ∀ t ∈ a.args, Clean D.toEnv .sym (stepNames ps ++ (freshOf D a).map Prod.fst) [] t) →
    (∀ a ∈ l, Clean D.toEnv .sym (stepNames ps ++ (freshOf D a).map Prod.fst) [] a.term) →
    parseAssigns D fuel name ps l st = .ok x →
    List.Forall₂ (AssignOk D x.2.tbl name ps) l x.1 ∧ st.tbl <+: x.2.tbl
  | [], st, x, _, _, _, h => by
    simp only [parseAssigns, Out.ok.injEq] at h; subst h
    exact ⟨.nil, List.prefix_refl _⟩
  | a :: l, st, x, hb, hca, hct, h => by
    simp only [parseAssigns, bind_ok, Out.ok.injEq] at h
    obtain ⟨y, h1, z, h2, rfl⟩ := h
    obtain ⟨g1, g2, g3⟩ := parseAssign_good hE hn hb (hca a (by simp)) (hct a (by simp)) h1
    obtain ⟨g4, g5⟩ := parseAssigns_good hE hn g3 (fun a ha => hca a (by simp [ha])) (fun a ha => hct a (by simp [ha])) h2
    exact ⟨.cons (g1.mono g5) g4, g2.trans g5⟩

/-- SPECIFICATION. The step `s` with its assignments `xs` says what `d` declares. -/
structure StepOk (D : DEnv) (tbl : List TAQ) (ps : List (String × Srt)) (d : StepDecl) (s : LStep) (xs : List LAssign) : Prop where
  message : TextOk D.toEnv tbl s.name ps [] d.message s.message
  condition : TextOk D.toEnv tbl s.name ps [] d.condition s.condition
  assigns : List.Forall₂ (AssignOk D tbl s.name ps) d.assigns xs

theorem parseStep_good {D : DEnv} (hE : D.toEnv.NoTaq) {fuel : Nat} {name : String} {ps : List (String × Srt)} {d : StepDecl} {st : St}
    {s : LStep} {xs : List LAssign} {st' : St} (hc : StepClean D ps d)
    (h : parseStep D fuel name ps d st = .ok ((s, xs), st')) : StepOk D st'.tbl ps d s xs := by
  simp only [parseStep, bind_ok, Out.ok.injEq] at h
  obtain ⟨⟨m, s1⟩, h1, ⟨c, s2⟩, h2, y, h3, e⟩ := h
  have es := (Prod.mk.inj (Prod.mk.inj e).1).1
  have ex := (Prod.mk.inj (Prod.mk.inj e).1).2
  have et := (Prod.mk.inj e).2
  subst es ex et
  have hn : ((ps ++ [("in", Srt.message)] ++ []).map Prod.fst).Nodup := by simpa [stepNames] using hc.names
  have hL : (ps ++ [("in", Srt.message)] ++ []).map Prod.fst = stepNames ps := by simp [stepNames]
  obtain ⟨g1, lk1, b1⟩ := step_text (name := name) (ps := ps) (fresh := []) (st := { st with bvars := withInput ps })
    (by rw [List.append_nil]; exact withInput_eq ps) hn (by rw [hL]; exact hc.message) h1
  have t1 : s1.bvars.take (ps.length + 1) = withInput ps := take_append b1 (withInput_len ps)
  obtain ⟨g2, lk2, b2⟩ := step_text (name := name) (ps := ps) (fresh := []) (st := s1.trunc (ps.length + 1))
    (by rw [List.append_nil]; exact t1.trans (withInput_eq ps)) hn (by rw [hL]; exact hc.condition) h2
  have t2 : s2.bvars.take (ps.length + 1) = withInput ps := take_append (b2.trans (congrArg (· ++ lk2) t1)) (withInput_len ps)
  have t3 : (s2.trunc (ps.length + 1)).bvars.take (ps.length + 1) = withInput ps := by
    simp only [St.trunc, t2]
    exact List.take_of_length_le (by rw [withInput_len]; exact Nat.le_refl _)
  obtain ⟨g3, p3⟩ := parseAssigns_good hE hc.names t3 hc.args hc.terms h3
  have p2 := (parse_inv D.toEnv hE fuel _ _ _ _ _ _ h2).pre
  exact ⟨g1.mono (List.IsPrefix.trans p2 p3), g2.mono p3, g3⟩

end Prs
end CV
