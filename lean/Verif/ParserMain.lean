import Verif.ParserLemmas
/-
The elaborator respects the meaning of surface terms: the invariant and its proof.
-/
set_option linter.unusedSimpArgs false
namespace CV
namespace Prs
open Fm

/-! ## Basic facts about the specification -/

theorem funOf_eq (E : Env) (r : Realm) (f : String) : funOf E r f = getFun E r f := by
  simp only [funOf, getFun, List.mem_cons, List.not_mem_nil, or_false]
  cases r <;> simp

theorem dens_uniform {D : Type} (E : Env) (I : Sem D) (r : Realm) (e : VEnv D) (ts : List Tm) :
    ∀ rs : List Realm, (∀ x ∈ rs, x = r) → dens E I r rs e ts = ts.map (den E I r e) := by
  induction ts with
  | nil => intro rs _; simp [dens]
  | cons t ts ih =>
    intro rs h
    simp only [dens, List.map_cons]
    rw [ih rs.tail (fun x hx => h x (List.mem_of_mem_tail hx))]
    cases rs with
    | nil => rfl
    | cons a rs => rw [List.headD_cons, h a (by simp)]

theorem dens_zip {D : Type} (E : Env) (I : Sem D) (r : Realm) (e : VEnv D) (ts : List Tm) :
    ∀ rs : List Realm, dens E I r rs e ts = (zipRealms r rs ts).map fun z => den E I z.1 e z.2 := by
  induction ts with
  | nil => intro rs; simp [dens, zipRealms]
  | cons t ts ih => intro rs; simp only [dens, zipRealms, List.map_cons, ih]

theorem leaks_eq (ts : List Tm) : leaks ts = ts.flatMap leak := by
  induction ts with
  | nil => rfl
  | cons t ts ih => simp [leaks, ih]

theorem zipRealms_snd (r : Realm) (ts : List Tm) : ∀ rs, (zipRealms r rs ts).map Prod.snd = ts := by
  induction ts with
  | nil => intro rs; rfl
  | cons t ts ih => intro rs; simp [zipRealms, ih]

/-- The parameters of a created function cover the free variables of its content, apart from the bound ones. -/
def TAQ.Cov : TAQ → Prop
  | .quant _ bs fr b => ∀ v, OccursFree v b → v.id ∈ bs.map Var.id ∨ v.id ∈ fr.map Var.id
  | .find bs fr c l r => (∀ b ∈ [c, l], ∀ v, OccursFree v b → v.id ∈ bs.map Var.id ∨ v.id ∈ fr.map Var.id) ∧
      ∀ v, OccursFree v r → v.id ∈ fr.map Var.id

/-- Functions are only added, and the added ones have enough parameters. -/
structure TblLe (a b : List TAQ) : Prop where
  pre : a <+: b
  cov : (∀ q ∈ a, TAQ.Cov q) → ∀ q ∈ b, TAQ.Cov q

theorem TblLe.refl (a : List TAQ) : TblLe a a := ⟨List.prefix_refl _, id⟩

theorem TblLe.trans {a b c : List TAQ} (h : TblLe a b) (k : TblLe b c) : TblLe a c :=
  ⟨h.pre.trans k.pre, fun x => k.cov (h.cov x)⟩

theorem TblLe.add (a : List TAQ) {q : TAQ} (h : q.Cov) : TblLe a (a ++ [q]) := by
  refine ⟨List.prefix_append _ _, fun x p hp => ?_⟩
  rcases List.mem_append.1 hp with hp | hp
  · exact x p hp
  · simp only [List.mem_cons, List.not_mem_nil, or_false] at hp; subst hp; exact h

theorem Sem.Real.mono {D : Type} {I : Sem D} {l l' : List TAQ} (h : I.Real l') (hp : l <+: l') : I.Real l := by
  intro n q hq
  refine h n q ?_
  obtain ⟨m, rfl⟩ := hp
  rw [List.getElem?_append_left (List.getElem?_eq_some_iff.1 hq).1]
  exact hq

/-! ## The invariant -/

/-- What is claimed of one elaborated term. -/
structure Good (E : Env) (r : Realm) (Γ : List (String × Var)) (t : Tm) (φ : Fm PF) (st st' : St) : Prop where
  bv : ∃ lk, st'.bvars = st.bvars ++ lk ∧ lk.map Prod.fst = leak t
  ids : IdsOk st'.bvars
  tbl : TblLe st.tbl st'.tbl
  free : ∀ v, OccursFree v φ → ∃ p ∈ Γ, p.2.id = v.id
  bnd : ∀ v ∈ φ.bound, st.bvars.length ≤ v.id
  nob : NoBind E r t → φ.bound = []
  sem : ∀ (D : Type) (I : Sem D), I.Ok E → I.Real st'.tbl → ∀ ρ : Valn D, φ.eval I.M ρ = den E I r (envOf Γ ρ) t

/-- The same for a list of terms. -/
structure GoodL (E : Env) (Γ : List (String × Var)) (zs : List (Realm × Tm)) (φs : List (Fm PF)) (st st' : St) :
    Prop where
  len : φs.length = zs.length
  bv : ∃ lk, st'.bvars = st.bvars ++ lk ∧ lk.map Prod.fst = leaks (zs.map Prod.snd)
  ids : IdsOk st'.bvars
  tbl : TblLe st.tbl st'.tbl
  free : ∀ φ ∈ φs, ∀ v, OccursFree v φ → ∃ p ∈ Γ, p.2.id = v.id
  bnd : ∀ φ ∈ φs, ∀ v ∈ φ.bound, st.bvars.length ≤ v.id
  nob : (∀ z ∈ zs, NoBind E z.1 z.2) → ∀ φ ∈ φs, φ.bound = []
  sem : ∀ (D : Type) (I : Sem D), I.Ok E → I.Real st'.tbl → ∀ ρ : Valn D,
    φs.map (eval I.M ρ) = zs.map fun z => den E I z.1 (envOf Γ ρ) z.2

/-- `q` does right by the term `z.2` in the realm `z.1`. -/
def QGood (E : Env) (z : Realm × Tm) (q : St → PRes) : Prop :=
  ∀ st Γ L Dd φ st', Sc Γ Dd st.bvars → (∀ x, x ∈ L ↔ x ∈ Γ.map Prod.fst) → Clean E z.1 L Dd z.2 →
    q st = .ok (φ, st') → Good E z.1 Γ z.2 φ st st'

/-- The elaborator `p` does right by every term. -/
def PGood (E : Env) (p : Realm → Px → Tm → St → PRes) : Prop := ∀ r es t, QGood E (r, t) (p r es t)

theorem Good.sc {E r Γ Dd t φ st st'} (g : Good E r Γ t φ st st') (h : Sc Γ Dd st.bvars) :
    Sc Γ (leak t ++ Dd) st'.bvars := by
  obtain ⟨lk, h1, h2⟩ := g.bv
  rw [h1, ← h2]
  exact h.extend (by rw [← h1]; exact g.ids)

theorem Good.le {E r Γ t φ st st'} (g : Good E r Γ t φ st st') : st.bvars.length ≤ st'.bvars.length := by
  obtain ⟨lk, h1, h2⟩ := g.bv
  rw [h1, List.length_append]; omega

/-- Elaborate a list from left to right. -/
def seqP {α : Type} (q : α → St → PRes) : List α → St → Out (List (Fm PF) × St)
  | [], st => .ok ([], st)
  | a :: l, st => (q a st).bind fun x => (seqP q l x.2).bind fun y => .ok (x.1 :: y.1, y.2)

theorem parseList_eq (p : Px → Tm → St → PRes) (l : List (Px × Tm)) :
    ∀ st, parseList p l st = seqP (fun a => p a.1 a.2) l st := by
  induction l with
  | nil => intro st; rfl
  | cons a l ih =>
    intro st
    obtain ⟨es, t⟩ := a
    simp only [parseList, seqP, ih]

theorem parseMacArgs_eq (p : Realm → Px → Tm → St → PRes) (r : Realm) (l : List ((String × Srt) × Tm)) :
    ∀ st, parseMacArgs p r l st = seqP (fun a => p ((realmOf a.1.2).getD r) (.stat a.1.2) a.2) l st := by
  induction l with
  | nil => intro st; rfl
  | cons a l ih =>
    intro st
    obtain ⟨b, t⟩ := a
    simp only [parseMacArgs, seqP, ih]

theorem cleanL_cons {E L Dd} {z : Realm × Tm} {l : List (Realm × Tm)} (h : CleanL E L Dd (z :: l)) :
    Clean E z.1 L Dd z.2 ∧ CleanL E L (leak z.2 ++ Dd) l := by
  obtain ⟨r, t⟩ := z
  cases h with
  | cons h1 h2 => exact ⟨h1, h2⟩

theorem seqP_good {E : Env} {α : Type} (q : α → St → PRes) (key : α → Realm × Tm) (l : List α)
    (hq : ∀ a, QGood E (key a) (q a)) : ∀ st Γ L Dd φs st', Sc Γ Dd st.bvars → (∀ x, x ∈ L ↔ x ∈ Γ.map Prod.fst) →
      CleanL E L Dd (l.map key) → seqP q l st = .ok (φs, st') → GoodL E Γ (l.map key) φs st st' := by
  induction l with
  | nil =>
    intro st Γ L Dd φs st' hsc hL hc h
    cases h
    exact ⟨rfl, ⟨[], by simp [leaks]⟩, hsc.ids, .refl _, fun φ h => (by cases h), fun φ h => (by cases h),
      fun _ φ h => (by cases h), fun D I _ _ ρ => rfl⟩
  | cons a l ih =>
    intro st Γ L Dd φs st' hsc hL hc h
    simp only [seqP] at h
    obtain ⟨x, hx, h⟩ := Out.bind_ok h
    obtain ⟨y, hy, h⟩ := Out.bind_ok h
    cases h
    simp only [List.map_cons] at hc
    have hc1 := (cleanL_cons hc).1
    have hc2 := (cleanL_cons hc).2
    have g := hq a st Γ L Dd x.1 x.2 hsc hL hc1 hx
    have gl := ih x.2 Γ L (leak (key a).2 ++ Dd) y.1 y.2 (g.sc hsc) hL hc2 hy
    obtain ⟨lk1, h1, h2⟩ := g.bv
    obtain ⟨lk2, h3, h4⟩ := gl.bv
    refine ⟨by simp [gl.len], ⟨lk1 ++ lk2, ?_, ?_⟩, gl.ids, g.tbl.trans gl.tbl, ?_, ?_, ?_, ?_⟩
    · rw [h3, h1, List.append_assoc]
    · simp only [List.map_append, h2, h4, List.map_cons, leaks]
    · intro φ hφ
      rcases List.mem_cons.1 hφ with rfl | hφ
      · exact g.free
      · exact gl.free φ hφ
    · intro φ hφ v hv
      rcases List.mem_cons.1 hφ with rfl | hφ
      · exact g.bnd v hv
      · exact Nat.le_trans g.le (gl.bnd φ hφ v hv)
    · intro hn φ hφ
      rcases List.mem_cons.1 hφ with rfl | hφ
      · exact g.nob (hn _ (by simp))
      · exact gl.nob (fun z hz => hn z (by simp only [List.map_cons, List.mem_cons]; exact Or.inr hz)) φ hφ
    · intro D I hI hR ρ
      simp only [List.map_cons]
      rw [gl.sem D I hI hR ρ, g.sem D I hI (hR.mono gl.tbl.pre) ρ]

/-- From the operands to the whole. -/
theorem GoodL.up {E r Γ t φ zs φs st st'} (g : GoodL E Γ zs φs st st') (hl : leaks (zs.map Prod.snd) = leak t)
    (hf : ∀ v, OccursFree v φ → ∃ ψ ∈ φs, OccursFree v ψ) (hb : ∀ x ∈ φ.bound, ∃ ψ ∈ φs, x ∈ ψ.bound)
    (hn : NoBind E r t → ∀ z ∈ zs, NoBind E z.1 z.2)
    (hs : ∀ (D : Type) (I : Sem D), I.Ok E → ∀ ρ : Valn D,
      φs.map (eval I.M ρ) = zs.map (fun z => den E I z.1 (envOf Γ ρ) z.2) → φ.eval I.M ρ = den E I r (envOf Γ ρ) t) :
    Good E r Γ t φ st st' where
  bv := hl ▸ g.bv
  ids := g.ids
  tbl := g.tbl
  free v hv := by obtain ⟨ψ, h, hv⟩ := hf v hv; exact g.free ψ h v hv
  bnd v hv := by obtain ⟨ψ, h, hv⟩ := hb v hv; exact g.bnd ψ h v hv
  nob h := by
    apply List.eq_nil_iff_forall_not_mem.2
    intro x hx
    obtain ⟨ψ, hψ, hx⟩ := hb x hx
    rw [g.nob (hn h) ψ hψ] at hx
    cases hx
  sem D I hI hR ρ := hs D I hI ρ (g.sem D I hI hR ρ)

theorem occ_app {F : Type} {v : Var} {g : F} {as : List (Fm F)} (h : OccursFree v (.app g as)) : ∃ a ∈ as, OccursFree v a := by
  cases h with
  | app ha h => exact ⟨_, ha, h⟩

theorem occ_app1 {F : Type} {v : Var} {g : F} {a : Fm F} (h : OccursFree v (.app g [a])) : OccursFree v a := by
  obtain ⟨b, hb, h⟩ := occ_app h
  simp only [List.mem_singleton] at hb
  exact hb ▸ h

theorem bound_app {F : Type} {x : Var} {g : F} {as : List (Fm F)} (h : x ∈ (Fm.app g as).bound) : ∃ a ∈ as, x ∈ a.bound := by
  simpa only [bound, bounds_eq, List.mem_flatMap] using h

theorem bound_app1 {F : Type} {g : F} {a : Fm F} : (Fm.app g [a]).bound = a.bound := by
  simp [bound, bounds]

/-! ## Applications -/

theorem tryEval_occ {v : Var} {s : Srt} {f : Fm PF} (h : OccursFree v (tryEval s f)) : OccursFree v f := by
  unfold tryEval at h
  split at h
  · exact occ_app1 h
  · exact h

theorem tryEval_bound {s : Srt} {f : Fm PF} : (tryEval s f).bound = f.bound := by
  unfold tryEval
  split
  · exact bound_app1
  · rfl

theorem tryEval_eval {D : Type} (I : Sem D) (ρ : Valn D) (s : Srt) (f : Fm PF) :
    (tryEval s f).eval I.M ρ = I.evalAt s (f.eval I.M ρ) := by
  cases s <;> simp [tryEval, evalSym, Sem.evalAt, eval, evals]

theorem buildApp_occ {v : Var} {r i store o as} (h : OccursFree v (buildApp r i store o as)) : ∃ a ∈ as, OccursFree v a := by
  have key : ∀ f : Fm PF, OccursFree v (if i.isName then .app .nameToMsg [.app i.sym as] else .app i.sym as : Fm PF) →
      ∃ a ∈ as, OccursFree v a := by
    intro _ h
    split at h
    · exact occ_app (occ_app1 h)
    · exact occ_app h
  unfold buildApp at h
  simp only at h
  split at h
  · split at h
    · exact key (.var v) (tryEval_occ h)
    · exact key (.var v) h
  · exact key (.var v) h

theorem buildApp_bound {x : Var} {r i store o as} (h : x ∈ (buildApp r i store o as).bound) : ∃ a ∈ as, x ∈ a.bound := by
  have key : x ∈ (if i.isName then .app .nameToMsg [.app i.sym as] else .app i.sym as : Fm PF).bound →
      ∃ a ∈ as, x ∈ a.bound := by
    intro h
    split at h
    · rw [bound_app1] at h; exact bound_app h
    · exact bound_app h
  unfold buildApp at h
  simp only at h
  split at h
  · split at h
    · rw [tryEval_bound] at h; exact key h
    · exact key h
  · exact key h

theorem buildApp_eval {D : Type} (I : Sem D) (ρ : Valn D) (r : Realm) (i : FInfo) (store : Store) (st : Store) (n : Nat)
    (as : List (Fm PF)) :
    (buildApp r i store (i.sig.inst st n).2.1 as).eval I.M ρ = I.appVal r i (as.map (eval I.M ρ)) := by
  obtain ⟨sym, sig, nm⟩ := i
  cases nm with
  | true =>
    cases r <;>
      simp [buildApp, Sem.appVal, FInfo.frealm, tryEval_eval, eval, evals, evals_eq]
  | false =>
    cases r with
    | sym => cases sig <;> simp [buildApp, Sem.appVal, FInfo.frealm, eval, evals_eq]
    | ev =>
      cases sig with
      | fixed a o =>
        cases o <;>
          simp [buildApp, Sem.appVal, FInfo.frealm, FSig.realm, realmOf, FSig.inst, Px.get, tryEval_eval, eval, evals_eq,
            Sem.evalAt]
      | nary => simp [buildApp, Sem.appVal, FInfo.frealm, FSig.realm, eval, evals_eq]
      | eq2 => simp [buildApp, Sem.appVal, FInfo.frealm, FSig.realm, eval, evals_eq]
      | ite3 => simp [buildApp, Sem.appVal, FInfo.frealm, FSig.realm, eval, evals_eq]

theorem inst_length {sig : FSig} {st : Store} {n : Nat} (h : sig.arityOk n = true) : (sig.inst st n).1.length = n := by
  cases sig with
  | fixed a o => simp [FSig.arityOk] at h; simp [FSig.inst, h]
  | nary => simp [FSig.inst]
  | eq2 => simp [FSig.arityOk] at h; simp [FSig.inst, h]
  | ite3 => simp [FSig.arityOk] at h; simp [FSig.inst, h]

theorem zip_snd_map {α β γ : Type} (f : β → γ) (a : List α) (b : List β) (h : a.length = b.length) :
    (a.zip b).map (fun x => f x.2) = b.map f := by
  induction a generalizing b with
  | nil => cases b with
    | nil => rfl
    | cons _ _ => simp at h
  | cons x a ih =>
    cases b with
    | nil => simp at h
    | cons y b => simp only [List.zip_cons_cons, List.map_cons, ih b (by simpa using h)]

theorem parseApp_good {E : Env} {p : Realm → Px → Tm → St → PRes} (hp : PGood E p) {r es i args st φ st' Γ L Dd}
    (hsc : Sc Γ Dd st.bvars) (hL : ∀ x, x ∈ L ↔ x ∈ Γ.map Prod.fst) (ha : i.sig.arityOk args.length = true)
    (hc : CleanL E L Dd (args.map fun t => (i.sig.realm.getD r, t))) (h : parseApp p r es i args st = .ok (φ, st')) :
    ∃ φs, GoodL E Γ (args.map fun t => (i.sig.realm.getD r, t)) φs st st' ∧
      ∃ store, φ = buildApp r i store (i.sig.inst st.store args.length).2.1 φs := by
  simp only [parseApp] at h
  obtain ⟨x, hx, h⟩ := Out.bind_ok h
  split at h
  · obtain ⟨u, hu, h⟩ := Out.bind_ok h
    cases h
    rw [parseList_eq] at hx
    have hk : ((i.sig.inst st.store args.length).1.zip args).map (fun a => (i.sig.realm.getD r, a.2)) =
        args.map fun t => (i.sig.realm.getD r, t) :=
      zip_snd_map (fun t => (i.sig.realm.getD r, t)) _ _ (inst_length ha)
    have g := seqP_good (E := E) (fun a : Px × Tm => p (i.sig.realm.getD r) a.1 a.2) (fun a => (i.sig.realm.getD r, a.2))
      _ (fun a => hp _ _ _) { st with store := (i.sig.inst st.store args.length).2.2 } Γ L Dd x.1 x.2 hsc hL
      (by rw [hk]; exact hc) hx
    rw [hk] at g
    exact ⟨x.1, ⟨g.len, g.bv, g.ids, g.tbl, g.free, g.bnd, g.nob, g.sem⟩, x.2.store, rfl⟩
  · cases h

theorem parseApp_up {E : Env} {p : Realm → Px → Tm → St → PRes} (hp : PGood E p) {r es i args st φ st' Γ L Dd t}
    (hsc : Sc Γ Dd st.bvars) (hL : ∀ x, x ∈ L ↔ x ∈ Γ.map Prod.fst) (ha : i.sig.arityOk args.length = true)
    (hc : CleanL E L Dd (args.map fun t => (i.sig.realm.getD r, t))) (h : parseApp p r es i args st = .ok (φ, st'))
    (hl : leaks args = leak t) (hn : NoBind E r t → ∀ a ∈ args, NoBind E (i.sig.realm.getD r) a)
    (hs : ∀ (D : Type) (I : Sem D) (ρ : Valn D), den E I r (envOf Γ ρ) t =
      I.appVal r i (args.map (den E I (i.sig.realm.getD r) (envOf Γ ρ)))) :
    Good E r Γ t φ st st' := by
  obtain ⟨φs, g, store, rfl⟩ := parseApp_good hp hsc hL ha hc h
  refine g.up ?_ (fun v => buildApp_occ) (fun x => buildApp_bound) ?_ ?_
  · rw [List.map_map]
    show leaks (args.map id) = _
    rw [List.map_id, hl]
  · intro hnb z hz
    obtain ⟨a, ha, rfl⟩ := List.mem_map.1 hz
    exact hn hnb a ha
  · intro D I hI ρ he
    rw [buildApp_eval, he, hs, List.map_map]
    rfl

/-! ## Operators -/

theorem foldInfix_ok (p : Px → Tm → St → PRes) (g : PF) (es : Px) (l : List Tm) : ∀ acc st φ st',
    foldInfix p g es l acc st = .ok (φ, st') → ∃ φs, seqP (p es) l st = .ok (φs, st') ∧
      φ = φs.foldl (fun a b => .app g [a, b]) acc := by
  induction l with
  | nil => intro acc st φ st' h; cases h; exact ⟨[], rfl, rfl⟩
  | cons t l ih =>
    intro acc st φ st' h
    simp only [foldInfix] at h
    obtain ⟨x, hx, h⟩ := Out.bind_ok h
    obtain ⟨φs, h1, h2⟩ := ih _ _ _ _ h
    exact ⟨x.1 :: φs, by simp only [seqP, hx, Out.bind, h1], h2⟩

theorem symInfix_ok (p : Px → Tm → St → PRes) (g : PF) (es : Px) (l : List Tm) (st : St) (φ : Fm PF) (st' : St)
    (h : symInfix p g es l st = .ok (φ, st')) : ∃ a φs, seqP (p es) l st = .ok (a :: φs, st') ∧
      φ = φs.foldl (fun a b => .app g [a, b]) a := by
  cases l with
  | nil => cases h
  | cons t l =>
    simp only [symInfix] at h
    obtain ⟨x, hx, h⟩ := Out.bind_ok h
    obtain ⟨φs, h1, h2⟩ := foldInfix_ok _ _ _ _ _ _ _ _ h
    exact ⟨x.1, φs, by simp only [seqP, hx, Out.bind, h1], h2⟩

theorem foldl_occ (g : PF) (v : Var) (l : List (Fm PF)) : ∀ a, OccursFree v (l.foldl (fun a b => .app g [a, b]) a) →
    ∃ ψ ∈ a :: l, OccursFree v ψ := by
  induction l with
  | nil => intro a h; exact ⟨a, by simp, h⟩
  | cons b l ih =>
    intro a h
    obtain ⟨ψ, h1, h2⟩ := ih _ h
    rcases List.mem_cons.1 h1 with rfl | h1
    · obtain ⟨c, hc, h2⟩ := occ_app h2
      refine ⟨c, ?_, h2⟩
      simp only [List.mem_cons, List.not_mem_nil, or_false] at hc
      rcases hc with rfl | rfl <;> simp
    · exact ⟨ψ, by simp [h1], h2⟩

theorem foldl_bound (g : PF) (x : Var) (l : List (Fm PF)) : ∀ a, x ∈ (l.foldl (fun a b => .app g [a, b]) a).bound →
    ∃ ψ ∈ a :: l, x ∈ ψ.bound := by
  induction l with
  | nil => intro a h; exact ⟨a, by simp, h⟩
  | cons b l ih =>
    intro a h
    obtain ⟨ψ, h1, h2⟩ := ih _ h
    rcases List.mem_cons.1 h1 with rfl | h1
    · obtain ⟨c, hc, h2⟩ := bound_app h2
      refine ⟨c, ?_, h2⟩
      simp only [List.mem_cons, List.not_mem_nil, or_false] at hc
      rcases hc with rfl | rfl <;> simp
    · exact ⟨ψ, by simp [h1], h2⟩

theorem foldl_eval {D : Type} (M : Str PF D) (ρ : Valn D) (g : PF) (l : List (Fm PF)) : ∀ a : Fm PF,
    (l.foldl (fun a b => Fm.app g [a, b]) a).eval M ρ = (l.map (eval M ρ)).foldl (fun a b => M.fn g [a, b]) (a.eval M ρ) := by
  induction l with
  | nil => intro a; rfl
  | cons b l ih => intro a; simp only [List.foldl_cons, List.map_cons, ih]; rfl

theorem symInfix_good {E : Env} {p : Realm → Px → Tm → St → PRes} (hp : PGood E p) {g es ts st φ st' Γ L Dd op}
    (hsc : Sc Γ Dd st.bvars) (hL : ∀ x, x ∈ L ↔ x ∈ Γ.map Prod.fst) (hc : CleanL E L Dd (ts.map fun t => (Realm.sym, t)))
    (h : symInfix (p .sym) g es ts st = .ok (φ, st')) (ho : opRealm .sym op = .sym)
    (hs : ∀ (D : Type) (I : Sem D) (vs : List D), I.infix .sym op vs = nest I.junk (fun a b => I.M.fn g [a, b]) vs) :
    Good E .sym Γ (.infx op ts) φ st st' := by
  obtain ⟨a, φs, h1, rfl⟩ := symInfix_ok _ _ _ _ _ _ _ h
  have gl := seqP_good (E := E) (fun t => p .sym es t) (fun t => (Realm.sym, t)) ts (fun t => hp _ _ _) st Γ L Dd _ _
    hsc hL hc h1
  refine gl.up ?_ (foldl_occ g · φs a) (foldl_bound g · φs a) ?_ ?_
  · simp only [List.map_map, leak]
    show leaks (ts.map id) = _
    rw [List.map_id]
  · intro hn z hz
    obtain ⟨t, ht, rfl⟩ := List.mem_map.1 hz
    cases hn with
    | infx hn => rw [ho] at hn; exact hn t ht
  · intro D I hI ρ he
    rw [foldl_eval]
    simp only [den, ho, hs]
    rw [dens_uniform _ _ _ _ _ _ (by simp)]
    have : ts.map (den E I .sym (envOf Γ ρ)) = (a :: φs).map (eval I.M ρ) := by
      rw [he, List.map_map]; rfl
    rw [this]
    rfl

/-! ## Chains of `===` -/

theorem pairs_clean {E : Env} {r : Realm} {L Dd : List String} : ∀ ts : List Tm, (∀ t ∈ ts, leak t = []) →
    (∀ t ∈ ts, Clean E .sym L Dd t) → CleanL E L Dd ((pairTerms .hardEq ts).map fun t => (r, t))
  | [], _, _ => .nil
  | [_], _, _ => .nil
  | a :: b :: l, h1, h2 => by
    simp only [pairTerms, List.map_cons]
    have la := h1 a (by simp)
    have lb := h1 b (by simp)
    refine .cons (.hardEq2 (.cons (h2 a (by simp)) (.cons ?_ .nil))) ?_
    · rw [la]; exact h2 b (by simp)
    · simp only [leak, leaks, la, lb, List.append_nil, List.nil_append]
      exact pairs_clean (b :: l) (fun t ht => h1 t (List.mem_cons_of_mem _ ht)) (fun t ht => h2 t (List.mem_cons_of_mem _ ht))

theorem pairs_leak : ∀ ts : List Tm, (∀ t ∈ ts, leak t = []) → leaks (pairTerms .hardEq ts) = []
  | [], _ => rfl
  | [_], _ => rfl
  | a :: b :: l, h => by
    simp only [pairTerms, leaks, leak, h a (by simp), h b (by simp), List.nil_append]
    exact pairs_leak (b :: l) fun t ht => h t (List.mem_cons_of_mem _ ht)

theorem pairs_nobind {E : Env} (r : Realm) : ∀ ts : List Tm, (∀ t ∈ ts, NoBind E .sym t) →
    ∀ t ∈ pairTerms .hardEq ts, NoBind E r t
  | [], _, t, ht => by cases ht
  | [_], _, t, ht => by cases ht
  | a :: b :: l, h, t, ht => by
    simp only [pairTerms, List.mem_cons] at ht
    rcases ht with rfl | ht
    · refine .infx ?_
      intro x hx
      simp only [List.mem_cons, List.not_mem_nil, or_false] at hx
      rcases hx with rfl | rfl
      · exact h _ (by simp)
      · exact h _ (by simp)
    · exact pairs_nobind r (b :: l) (fun t ht => h t (List.mem_cons_of_mem _ ht)) t ht

theorem pairs_den {D : Type} (E : Env) (I : Sem D) (r : Realm) (e : VEnv D) : ∀ ts : List Tm,
    (pairTerms .hardEq ts).map (den E I r e) = consec (I.hardEq1 r) (ts.map (den E I .sym e))
  | [] => rfl
  | [_] => rfl
  | a :: b :: l => by
    have ih := pairs_den E I r e (b :: l)
    simp only [List.map_cons] at ih
    simp only [pairTerms, List.map_cons, consec, ih]
    simp only [den, opRealm, dens, List.headD_nil, List.tail_nil]
    rfl

theorem leaks_nil {ts : List Tm} (h : ∀ t ∈ ts, leak t = []) : leaks ts = [] := by
  rw [leaks_eq]
  simp only [List.flatMap_eq_nil_iff]
  exact h

theorem chain_ne2 {D : Type} (I : Sem D) (r : Realm) (f : D → D → D) (l : List D) (h : l.length ≠ 2) :
    I.chain r f l = I.conj r (consec f l) := by
  match l, h with
  | [], _ => rfl
  | [_], _ => rfl
  | [_, _], h => simp at h
  | _ :: _ :: _ :: _, _ => rfl

theorem hardEqN_good {E : Env} {r : Realm} {Γ ts φ st st'} (hl : ts.length ≠ 2) (h1 : ∀ t ∈ ts, leak t = [])
    (g : Good E r Γ (.infx .and (pairTerms .hardEq ts)) φ st st') : Good E r Γ (.infx .hardEq ts) φ st st' where
  bv := by
    have := g.bv
    simp only [leak, pairs_leak ts h1] at this
    simpa only [leak, leaks_nil h1] using this
  ids := g.ids
  tbl := g.tbl
  free := g.free
  bnd := g.bnd
  nob h := by
    refine g.nob (.infx ?_)
    cases h with
    | infx h => exact pairs_nobind _ ts h
  sem D I hI hR ρ := by
    rw [g.sem D I hI hR ρ]
    simp only [den]
    rw [dens_uniform _ _ _ _ _ _ (by simp), dens_uniform _ _ _ _ _ _ (by simp)]
    show I.infix r .and _ = I.infix r .hardEq _
    simp only [Sem.infix, opRealm]
    rw [pairs_den, chain_ne2 _ _ _ _ (by simpa using hl)]

theorem Good.cast {E : Env} {r : Realm} {Γ t t' φ st st'} (g : Good E r Γ t φ st st') (hl : leak t = leak t')
    (hn : NoBind E r t' → NoBind E r t) (hd : ∀ (D : Type) (I : Sem D) (e : VEnv D), den E I r e t = den E I r e t') :
    Good E r Γ t' φ st st' where
  bv := hl ▸ g.bv
  ids := g.ids
  tbl := g.tbl
  free := g.free
  bnd := g.bnd
  nob h := g.nob (hn h)
  sem D I hI hR ρ := by rw [g.sem D I hI hR ρ, hd]

theorem parseApplication_good {E : Env} {p : Realm → Px → Tm → St → PRes} (hp : PGood E p) {r es f i args st φ st' Γ L Dd}
    (hsc : Sc Γ Dd st.bvars) (hL : ∀ x, x ∈ L ↔ x ∈ Γ.map Prod.fst) (hi : funOf E r f = some i)
    (ha : i.sig.arityOk args.length = true) (hr : RealmsOk (i.sig.realm.getD r) i.sig.args)
    (hc : CleanL E L Dd (args.map fun t => (i.sig.realm.getD r, t)))
    (h : parseApplication p E r es f (some args) st = .ok (φ, st')) : Good E r Γ (.app f args) φ st st' := by
  simp only [parseApplication] at h
  rw [← funOf_eq, hi] at h
  obtain ⟨j, hj, h⟩ := Out.bind_ok h
  cases hj
  refine parseApp_up hp hsc hL ha hc h rfl ?_ ?_
  · intro hn
    cases hn with
    | app hi' hn => rw [← funOf_eq, hi] at hi'; cases hi'; exact hn
  · intro D I e
    simp only [den, hi]
    rw [dens_uniform]
    intro x hx
    cases hsig : i.sig with
    | fixed a o =>
      rw [hsig] at hx hr
      obtain ⟨s, hs, rfl⟩ := List.mem_map.1 hx
      exact hr s hs
    | nary => rw [hsig] at hx; cases hx
    | eq2 => rw [hsig] at hx; cases hx
    | ite3 => rw [hsig] at hx; cases hx

/-- The negation of each realm. -/
def notInfo : Realm → FInfo
  | .sym => ⟨.taNot, .fixed [.condition] .condition, false⟩
  | .ev => ⟨.not, .fixed [.bool] .bool, false⟩

theorem funOf_not (E : Env) (r : Realm) : funOf E r "not" = some (notInfo r) := by
  cases r <;> simp [funOf, notInfo]

theorem parseInfix_good {E : Env} {p : Realm → Px → Tm → St → PRes} (hp : PGood E p) {r es op ts st φ st' Γ L Dd}
    (hsc : Sc Γ Dd st.bvars) (hL : ∀ x, x ∈ L ↔ x ∈ Γ.map Prod.fst) (hc : Clean E r L Dd (.infx op ts))
    (h : parseInfix p E r es op ts st = .ok (φ, st')) : Good E r Γ (.infx op ts) φ st st' := by
  have hnb : ∀ {r op ts}, NoBind E r (.infx op ts) → ∀ a ∈ ts, NoBind E (opRealm r op) a := by
    intro r op ts h
    cases h with
    | infx h => exact h
  have hden : ∀ {D : Type} (I : Sem D) (r : Realm) (op : Op) (e : VEnv D) (ts : List Tm),
      den E I r e (.infx op ts) = I.infix r op (ts.map (den E I (opRealm r op) e)) := by
    intro D I r op e ts
    simp only [den]
    rw [dens_uniform _ _ _ _ _ _ (by simp)]
  cases hc with
  | hardEq2 hc =>
    simp only [parseInfix, List.length_cons, List.length_nil, if_true] at h
    exact parseApp_up (i := taEqInfo) (args := [_, _]) hp hsc hL (by rfl) hc h rfl hnb (by
      intro D I e
      rw [hden]
      cases r <;> rfl)
  | hardEqN hl h1 h2 =>
    simp only [parseInfix, if_neg hl] at h
    exact hardEqN_good hl h1 (hp r es _ st Γ L Dd φ st' hsc hL (.and (pairs_clean ts h1 h2)) h)
  | eqEv hc =>
    simp only [parseInfix] at h
    exact parseApp_up (i := eqInfo) (args := [_, _]) hp hsc hL (by rfl) hc h rfl hnb (by intro D I e; rw [hden]; rfl)
  | eqSym hc =>
    simp only [parseInfix] at h
    refine (hp _ _ _ st Γ L Dd φ st' hsc hL hc h).cast rfl (fun hn => .infx (hnb (op := .eq) hn)) ?_
    intro D I e
    rw [hden, hden]
    rfl
  | neq hc =>
    simp only [parseInfix] at h
    have g := parseApplication_good hp hsc hL (funOf_not E r) 
      (by cases r <;> rfl)
      (by cases r <;> simp [notInfo, RealmsOk, FSig.args, FSig.realm, realmOf, argRealm])
      (by cases r <;> exact .cons hc .nil) h
    refine g.cast ?_ ?_ ?_
    · simp [leak, leaks]
    · intro hn
      refine .app (by rw [← funOf_eq]; exact funOf_not E r) ?_
      intro a ha
      simp only [List.mem_singleton] at ha
      subst ha
      have := hnb hn
      cases r <;> exact .infx this
    · intro D I e
      simp only [den, funOf_not]
      cases r
      · simp only [notInfo, dens, sigRealms, FSig.realm, realmOf, argRealm, Option.getD, List.map_cons, List.map_nil, List.headD_cons, Sem.appVal]
        rw [hden, dens_uniform _ _ _ _ _ _ (by simp)]
        rfl
      · simp only [notInfo, dens, sigRealms, FSig.realm, realmOf, argRealm, Option.getD, List.map_cons, List.map_nil, List.headD_cons, Sem.appVal]
        rw [hden, dens_uniform _ _ _ _ _ _ (by simp)]
        rfl
  | iff hc =>
    simp only [parseInfix] at h
    exact parseApp_up (i := eqInfo) (args := [_, _]) hp hsc hL (by rfl) hc h rfl hnb (by intro D I e; rw [hden]; rfl)
  | implies hc =>
    simp only [parseInfix] at h
    refine parseApp_up hp hsc hL (by cases r <;> rfl) (by cases r <;> exact hc) h rfl ?_ ?_
    · cases r <;> exact hnb
    · intro D I e
      rw [hden]
      cases r <;> rfl
  | and hc =>
    cases r with
    | ev => exact parseApp_up (i := ⟨.and, .nary, false⟩) (args := ts) hp hsc hL (by rfl) hc h rfl hnb (by intro D I e; rw [hden]; rfl)
    | sym => exact symInfix_good hp hsc hL hc h rfl (fun D I vs => rfl)
  | or hc =>
    cases r with
    | ev => exact parseApp_up (i := ⟨.or, .nary, false⟩) (args := ts) hp hsc hL (by rfl) hc h rfl hnb (by intro D I e; rw [hden]; rfl)
    | sym => exact symInfix_good hp hsc hL hc h rfl (fun D I vs => rfl)

end Prs
end CV
