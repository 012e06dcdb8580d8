/-
Elaborated formulas are well sorted (C83): well-sorted clean text becomes a well-sorted formula, and the functions
created on the way have well-sorted contents.
-/
import Verif.SortSpec
import Verif.ElabAccept
import Verif.ParserMain2

set_option linter.unusedSimpArgs false
namespace CV
namespace Prs
open Fm

/-! ## Basic facts on well-sorted formulas -/

theorem FnSrt.mono {decl tbl tbl' f ss s} (h : FnSrt decl tbl f ss s) (hp : tbl <+: tbl') : FnSrt decl tbl' f ss s := by
  have hg : ∀ {n : Nat} {q : TAQ}, tbl[n]? = some q → tbl'[n]? = some q := by
    intro n q hq
    obtain ⟨m, rfl⟩ := hp
    rw [List.getElem?_append_left (List.getElem?_eq_some_iff.1 hq).1]
    exact hq
  cases h <;> first
    | exact .taQuant (hg ‹_›)
    | exact .taFind (hg ‹_›)
    | exact .sym ‹_›
    | constructor

theorem HasSrt.mono {decl tbl tbl' C φ s} (h : HasSrt decl tbl C φ s) (hp : tbl <+: tbl') : HasSrt decl tbl' C φ s := by
  induction h with
  | var h => exact .var h
  | app h1 h2 _ ih => exact .app (h1.mono hp) h2 ih
  | quant _ ih => exact .quant ih

theorem bindC_congr {C C' : Ctx} {i : Nat} : ∀ (vs : List Var), (i ∉ vs.map Var.id → C i = C' i) → bindC C vs i = bindC C' vs i
  | [], h => h (by simp)
  | v :: vs, h => by
    refine bindC_congr vs fun hi => ?_
    by_cases e : i = v.id
    · simp [e]
    · simp only [if_neg e]
      exact h (by simp [e, hi])

theorem bindC_other {C : Ctx} {i : Nat} : ∀ (vs : List Var), i ∉ vs.map Var.id → bindC C vs i = C i
  | [], _ => rfl
  | v :: vs, h => by
    simp only [List.map_cons, List.mem_cons, not_or] at h
    rw [bindC, bindC_other vs h.2]
    exact if_neg h.1

/-- All entries of a block with this number have the sort `s`. -/
theorem bindC_all {C : Ctx} {i : Nat} {s : Srt} : ∀ (vs : List Var), (∀ v ∈ vs, v.id = i → v.sort = s) →
    (i ∈ vs.map Var.id ∨ C i = some s) → bindC C vs i = some s
  | [], _, h => h.resolve_left (by simp)
  | v :: vs, hs, h => by
    refine bindC_all vs (fun w hw => hs w (List.mem_cons_of_mem _ hw)) ?_
    by_cases e : i = v.id
    · right; simp only [if_pos e]; rw [hs v (by simp) e.symm]
    · simp only [if_neg e]
      rcases h with h | h
      · left; simpa [e] using h
      · exact .inr h

/-- Only the free variables matter. -/
theorem HasSrt.congr {decl tbl C φ s} (h : HasSrt decl tbl C φ s) : ∀ C', (∀ v, OccursFree v φ → C v.id = C' v.id) →
    HasSrt decl tbl C' φ s := by
  induction h with
  | var h => intro C' hC; exact .var (by rw [← hC _ .var]; exact h)
  | app h1 h2 _ ih =>
    intro C' hC
    exact .app h1 h2 fun p hp => ih p hp C' fun v hv => hC v (.app (List.of_mem_zip hp).1 hv)
  | quant _ ih =>
    intro C' hC
    refine .quant (ih _ fun v hv => bindC_congr _ fun hn => hC v (.quant hn hv))

/-- Inserting a term for a variable whose number is below all bound ones. -/
theorem HasSrt.one {decl tbl k χ so} {C φ s} (h : HasSrt decl tbl C φ s) (hb : ∀ x ∈ φ.bound, k < x.id) (hk : C k = some so)
    (hχ : ∀ C'', (∀ i, i < k → C'' i = C i) → HasSrt decl tbl C'' χ so) :
    ∀ C', (∀ i, i ≠ k → C' i = C i) → HasSrt decl tbl C' (Subst.apply (Subst.oneVar k χ) φ) s := by
  induction h with
  | var h =>
    rename_i C v s
    intro C' hC
    simp only [Subst.apply, Subst.oneVar]
    split
    · rename_i e
      rw [e, hk] at h
      cases h
      exact hχ C' fun i hi => hC i (by omega)
    · rename_i e
      exact .var (by rw [hC _ e]; exact h)
  | app h1 h2 _ ih =>
    rename_i C f args ss s _
    intro C' hC
    rw [Subst.apply, Subst.applys_eq]
    refine .app h1 (by simpa using h2) fun p hp => ?_
    rw [List.zip_map_left] at hp
    obtain ⟨q, hq, rfl⟩ := List.mem_map.1 hp
    refine ih q hq (fun x hx => hb x ?_) hk hχ C' hC
    simp only [bound, bounds_eq, List.mem_flatMap]
    exact ⟨q.1, (List.of_mem_zip hq).1, hx⟩
  | quant _ ih =>
    rename_i C q vs b _
    intro C' hC
    rw [Subst.apply]
    have hv : ∀ x ∈ vs.map Var.id, k < x := by
      intro x hx
      obtain ⟨v, hv, rfl⟩ := List.mem_map.1 hx
      exact hb v (by simp [bound, hv])
    refine .quant (ih (fun x hx => hb x (by simp [bound, hx])) ?_ ?_ _ ?_)
    · rw [bindC_other _ fun h => by have := hv k h; omega]; exact hk
    · intro C'' hC''
      refine hχ C'' fun i hi => ?_
      rw [hC'' i hi, bindC_other _ fun h => by have := hv i h; omega]
    · intro i hi
      exact bindC_congr _ fun _ => hC i hi

/-- Inserting terms for variables below no binder. -/
theorem HasSrt.insert {decl tbl σ} {C φ s} (h : HasSrt decl tbl C φ s) (hb : φ.bound = []) {C'}
    (hσ : ∀ w, OccursFree w φ → ∀ s, C w.id = some s → HasSrt decl tbl C' (σ w) s) :
    HasSrt decl tbl C' (Subst.apply σ φ) s := by
  induction h with
  | var h => exact hσ _ .var _ h
  | app h1 h2 _ ih =>
    rename_i C f args ss s _
    rw [Subst.apply, Subst.applys_eq]
    refine .app h1 (by simpa using h2) fun p hp => ?_
    rw [List.zip_map_left] at hp
    obtain ⟨q, hq, rfl⟩ := List.mem_map.1 hp
    have hm := (List.of_mem_zip hq).1
    refine ih q hq ?_ fun w hw => hσ w (.app hm hw)
    apply List.eq_nil_iff_forall_not_mem.2
    intro x hx
    have : x ∈ (Fm.app f args).bound := by
      simp only [bound, bounds_eq, List.mem_flatMap]
      exact ⟨q.1, hm, hx⟩
    rw [hb] at this
    cases this
  | quant h ih =>
    rename_i C q vs b
    simp only [bound, List.append_eq_nil_iff] at hb
    obtain ⟨rfl, hb⟩ := hb
    rw [Subst.apply]
    exact .quant (ih hb fun w hw => hσ w (.quant (by simp) hw))

/-! ## Scopes -/

/-- The context gives the variables of the scope their sorts. -/
def Agree (C : Ctx) (Γ : List (String × Var)) : Prop := ∀ p ∈ Γ, C p.2.id = some p.2.sort

/-- The scope of the specification. -/
def scopeOf (Γ : List (String × Var)) : List (String × Srt) := Γ.map fun p => (p.1, p.2.sort)

theorem Agree.block {n : Nat} : ∀ {l : List (String × Srt)} {Γ : List (String × Var)} {C : Ctx} , Agree C Γ →
    (∀ p ∈ Γ, p.2.id < n) → Agree (bindC C ((numFrom n l).map Prod.snd)) (extS (numFrom n l) Γ)
  | [], _, _, h, _ => h
  | b :: l, Γ, C, h, hn => by
    simp only [numFrom, List.map_cons, bindC, extS]
    refine Agree.block (n := n + 1) ?_ ?_
    · intro p hp
      rcases List.mem_cons.1 hp with rfl | hp
      · simp
      · have := hn p hp
        simp only
        rw [if_neg (by omega)]
        exact h p hp
    · intro p hp
      rcases List.mem_cons.1 hp with rfl | hp
      · simp
      · have := hn p hp
        omega

/-! ## The invariant -/

/-- What is claimed of one elaborated term: the formula has the sort of the term, in the symbolic realm its variables carry
the sorts of their binders, and the created functions stay well sorted. -/
structure Ty (decl : Sg) (Γ : List (String × Var)) (r : Realm) (s : Srt) (φ : Fm PF) (st st' : St) : Prop where
  ty : ∀ C, Agree C Γ → HasSrt decl st'.tbl C φ (norm r s)
  tags : r = .sym → realmOf s ≠ some .ev → ∀ v, OccursFree v φ → (∃ p ∈ Γ, p.2 = v) ∧ realmOf v.sort ≠ some .ev
  tbl : TblSrt decl st.tbl → TblSrt decl st'.tbl

/-- The same for a list of terms. -/
structure TyL (decl : Sg) (Γ : List (String × Var)) (zs : List (Realm × Srt × Tm)) (φs : List (Fm PF)) (st st' : St) : Prop where
  len : φs.length = zs.length
  ty : ∀ C, Agree C Γ → ∀ p ∈ φs.zip zs, HasSrt decl st'.tbl C p.1 (norm p.2.1 p.2.2.1)
  tags : ∀ p ∈ φs.zip zs, p.2.1 = .sym → realmOf p.2.2.1 ≠ some .ev → ∀ v, OccursFree v p.1 →
    (∃ q ∈ Γ, q.2 = v) ∧ realmOf v.sort ≠ some .ev
  tbl : TblSrt decl st.tbl → TblSrt decl st'.tbl

/-- `q` gives the term `z.2.2`, in the realm `z.1`, the sort `z.2.1`. -/
def QTy (E : Env) (decl : Sg) (z : Realm × Srt × Tm) (q : St → PRes) : Prop :=
  ∀ st Γ L D G D' φ st', Sc Γ D st.bvars → (∀ x, x ∈ L ↔ x ∈ Γ.map Prod.fst) → (∀ x, x ∈ G ↔ x ∈ scopeOf Γ) →
    Clean E z.1 L D z.2.2 → Ws E z.1 G D' z.2.2 z.2.1 → q st = .ok (φ, st') → Ty decl Γ z.1 z.2.1 φ st st'

def PTy (E : Env) (decl : Sg) (p : Realm → Px → Tm → St → PRes) : Prop := ∀ r es t s, QTy E decl (r, s, t) (p r es t)

theorem norm_same {r a b} (h : Same r a b) : norm r a = norm r b := by cases r <;> exact h

theorem realm_same {a b} (h : Same .sym a b) : a = b := h

theorem wsL_cons {E G D r s t l} (h : WsL E G D ((r, s, t) :: l)) : ∃ s', Ws E r G D t s' ∧ Same r s s' ∧ WsL E G (leak t ++ D) l := by
  cases h with
  | cons h1 h2 h3 => exact ⟨_, h1, h2, h3⟩

theorem seqP_ty {E : Env} {decl : Sg} {α : Type} (q : α → St → PRes) : ∀ {l : List α} {zs : List (Realm × Srt × Tm)},
    List.Forall₂ (fun a z => (∀ s, QTy E decl (z.1, s, z.2.2) (q a)) ∧ QGood E (z.1, z.2.2) (q a)) l zs →
    ∀ {st Γ L D G D' φs st'}, Sc Γ D st.bvars → (∀ x, x ∈ L ↔ x ∈ Γ.map Prod.fst) → (∀ x, x ∈ G ↔ x ∈ scopeOf Γ) →
      CleanL E L D (zs.map fun z => (z.1, z.2.2)) → WsL E G D' zs → seqP q l st = .ok (φs, st') →
      TyL decl Γ zs φs st st' ∧ TblLe st.tbl st'.tbl := by
  intro l zs hq
  induction hq with
  | nil =>
    intro st Γ L D G D' φs st' _ _ _ _ _ h
    cases h
    exact ⟨⟨rfl, fun _ _ p hp => (by cases hp), fun p hp => (by cases hp), id⟩, .refl _⟩
  | cons h0 _ ih =>
    rename_i a z l zs _
    intro st Γ L D G D' φs st' hsc hL hG hc hw h
    simp only [seqP] at h
    obtain ⟨x, hx, h⟩ := Out.bind_ok h
    obtain ⟨y, hy, h⟩ := Out.bind_ok h
    cases h
    simp only [List.map_cons] at hc
    have hc1 := (cleanL_cons hc).1
    have hc2 := (cleanL_cons hc).2
    obtain ⟨r, s, t⟩ := z
    obtain ⟨s', hw1, hs, hw2⟩ := wsL_cons hw
    have t1 := h0.1 s' st Γ L D G D' x.1 x.2 hsc hL hG hc1 hw1 hx
    have g := h0.2 st Γ L D x.1 x.2 hsc hL hc1 hx
    obtain ⟨tl, gl⟩ := ih (g.sc hsc) hL hG hc2 hw2 hy
    refine ⟨⟨by simp [tl.len], ?_, ?_, fun k => tl.tbl (t1.tbl k)⟩, g.tbl.trans gl⟩
    · intro C hC p hp
      simp only [List.zip_cons_cons, List.mem_cons] at hp
      rcases hp with rfl | hp
      · simp only
        rw [norm_same hs]
        exact (t1.ty C hC).mono gl.pre
      · exact tl.ty C hC p hp
    · intro p hp
      simp only [List.zip_cons_cons, List.mem_cons] at hp
      rcases hp with rfl | hp
      · intro hr he
        simp only at hr he
        subst hr
        rw [realm_same hs] at he
        exact t1.tags rfl he
      · exact tl.tags p hp

/-! ## Applications -/

theorem parseApp_seq {p : Realm → Px → Tm → St → PRes} {r es i args st φ st'} (h : parseApp p r es i args st = .ok (φ, st')) :
    ∃ φs sx store, seqP (fun a : Px × Tm => p (i.sig.realm.getD r) a.1 a.2) ((i.sig.inst st.store args.length).1.zip args)
        { st with store := (i.sig.inst st.store args.length).2.2 } = .ok (φs, sx) ∧ st'.tbl = sx.tbl ∧ st'.bvars = sx.bvars ∧
      φ = buildApp r i store (i.sig.inst st.store args.length).2.1 φs := by
  simp only [parseApp] at h
  obtain ⟨x, hx, h⟩ := Out.bind_ok h
  split at h
  · obtain ⟨u, hu, h⟩ := Out.bind_ok h
    cases h
    rw [parseList_eq] at hx
    exact ⟨x.1, x.2, x.2.store, hx, rfl, rfl, rfl⟩
  · cases h

theorem norm_realm {r s} (h : argRealm r s = r) : norm r s = s := by
  cases r with
  | sym => rfl
  | ev => cases s <;> first | rfl | cases h

theorem realm_sym {s} (h : argRealm .sym s = .sym) : realmOf s ≠ some .ev := by
  cases s <;> first | (intro h; cases h; done) | cases h

/-- The formula built from well-sorted arguments. -/
theorem buildApp_ty {decl tbl C r i a o store as} (hF : FnSrt decl tbl i.sym a o) (hN : i.isName = true ↔ o = .name)
    (hi : i.sig = .fixed a o) (hl : as.length = a.length) (ha : ∀ p ∈ as.zip a, HasSrt decl tbl C p.1 p.2) :
    HasSrt decl tbl C (buildApp r i store (.stat o) as) (norm r (outOf o)) := by
  have h0 : HasSrt decl tbl C (.app i.sym as) o := .app hF hl ha
  have one : ∀ {g s s' φ}, FnSrt decl tbl g [s] s' → HasSrt decl tbl C φ s → HasSrt decl tbl C (.app g [φ]) s' := by
    intro g s s' φ hg h
    refine .app hg rfl fun p hp => ?_
    simp only [List.zip_cons_cons, List.zip_nil_right, List.mem_singleton] at hp
    subst hp
    exact h
  cases hn : i.isName with
  | true =>
    have ho := hN.1 hn
    subst ho
    have h1 := one .nameToMsg h0
    cases r with
    | sym => simpa [buildApp, hn, FInfo.frealm, norm, outOf] using h1
    | ev => simpa [buildApp, hn, FInfo.frealm, norm, outOf, tryEval, evalSym, Same.val] using one .evalMsg h1
  | false =>
    have ho : o ≠ .name := fun e => by have := hN.2 e; rw [hn] at this; cases this
    cases r with
    | sym => simpa [buildApp, hn, FInfo.frealm, norm, outOf, ho] using h0
    | ev =>
      cases o <;> first
        | exact absurd rfl ho
        | (simpa [buildApp, hn, FInfo.frealm, hi, FSig.realm, realmOf, norm, outOf, Same.val, Px.get, tryEval, evalSym] using one .evalMsg h0)
        | (simpa [buildApp, hn, FInfo.frealm, hi, FSig.realm, realmOf, norm, outOf, Same.val, Px.get, tryEval, evalSym] using one .evalCond h0)
        | (simpa [buildApp, hn, FInfo.frealm, hi, FSig.realm, realmOf, norm, outOf, Same.val, Px.get, tryEval, evalSym] using h0)

theorem zip_third {as : List (Fm PF)} {r : Realm} {ss : List Srt} {ts : List Tm} (hl : ts.length = ss.length) {p : Fm PF × Srt}
    (h : p ∈ as.zip ss) : ∃ t, (p.1, r, p.2, t) ∈ as.zip (expect r ss ts) := by
  induction as generalizing ss ts with
  | nil => cases h
  | cons x as ih =>
    cases ss with
    | nil => cases h
    | cons s ss =>
      cases ts with
      | nil => cases hl
      | cons t ts =>
        simp only [expect, List.zip_cons_cons, List.map_cons, List.mem_cons] at h ⊢
        rcases h with rfl | h
        · exact ⟨t, .inl rfl⟩
        · obtain ⟨u, hu⟩ := ih (by simpa using hl) h
          exact ⟨u, .inr hu⟩

theorem forall_expect {E : Env} {decl : Sg} {p : Realm → Px → Tm → St → PRes} (hp : PTy E decl p) (hg : PGood E p) {r : Realm} :
    ∀ {a : List Srt} {args : List Tm}, List.Forall₂ (fun (a : Px × Tm) (z : Realm × Srt × Tm) =>
      (∀ s, QTy E decl (z.1, s, z.2.2) (p r a.1 a.2)) ∧ QGood E (z.1, z.2.2) (p r a.1 a.2)) ((a.map Px.stat).zip args) (expect r a args)
  | [], _ => .nil
  | _ :: _, [] => .nil
  | _ :: _, _ :: _ => .cons ⟨fun _ => hp _ _ _ _, hg _ _ _⟩ (forall_expect hp hg)

theorem expect_clean {r : Realm} : ∀ {a : List Srt} {args : List Tm}, args.length = a.length →
    (expect r a args).map (fun z => (z.1, z.2.2)) = args.map fun t => (r, t)
  | [], [], _ => rfl
  | _ :: a, _ :: args, h => by
    have := expect_clean (r := r) (a := a) (args := args) (by simpa using h)
    simp only [expect, List.zip_cons_cons, List.map_cons] at this ⊢
    rw [this]

theorem tags_build {Γ : List (String × Var)} {r i store o as} (h : ∀ a ∈ as, ∀ v, OccursFree v a → (∃ q ∈ Γ, q.2 = v) ∧ realmOf v.sort ≠ some .ev) :
    ∀ v, OccursFree v (buildApp r i store o as) → (∃ q ∈ Γ, q.2 = v) ∧ realmOf v.sort ≠ some .ev := by
  intro v hv
  obtain ⟨a, ha, hv⟩ := buildApp_occ hv
  exact h a ha v hv

theorem fixed_ty {E : Env} {decl : Sg} {p : Realm → Px → Tm → St → PRes} (hp : PTy E decl p) (hg : PGood E p)
    {r es i a o args st φ st' Γ L D G D'} (hi : i.sig = .fixed a o) (hF : FnSrt decl [] i.sym a o) (hN : i.isName = true ↔ o = .name)
    (hr : RealmsOk (i.sig.realm.getD r) i.sig.args) (hl : args.length = a.length)
    (hsc : Sc Γ D st.bvars) (hL : ∀ x, x ∈ L ↔ x ∈ Γ.map Prod.fst) (hG : ∀ x, x ∈ G ↔ x ∈ scopeOf Γ)
    (hc : CleanL E L D (args.map fun t => (i.sig.realm.getD r, t))) (hw : WsL E G D' (expect ((realmOf o).getD r) a args))
    (h : parseApp p r es i args st = .ok (φ, st')) : Ty decl Γ r (outOf o) φ st st' := by
  obtain ⟨φs, sx, store, h1, ht, _, rfl⟩ := parseApp_seq h
  rw [hi] at h1 hr hc
  simp only [FSig.inst, FSig.realm, FSig.args] at h1 hr hc
  obtain ⟨tl, gl⟩ := seqP_ty (E := E) (decl := decl) (fun a : Px × Tm => p ((realmOf o).getD r) a.1 a.2) (forall_expect hp hg)
    (st := { st with store := st.store }) hsc hL hG (by rw [expect_clean hl]; exact hc) hw h1
  have hlen : φs.length = a.length := by rw [tl.len]; simp [expect, hl]
  refine ⟨fun C hC => ?_, ?_, fun k => ht ▸ tl.tbl k⟩
  · rw [ht, hi]
    refine buildApp_ty (hF.mono (List.nil_prefix)) hN hi hlen fun p hp => ?_
    obtain ⟨t, hm⟩ := zip_third (r := (realmOf o).getD r) hl hp
    have := tl.ty C hC _ hm
    rwa [norm_realm (hr p.2 (List.of_mem_zip hp).2)] at this
  · rintro rfl he
    refine tags_build fun b hb => ?_
    obtain ⟨k, hk, rfl⟩ := List.getElem_of_mem hb
    have hp : (φs[k], a[k]'(by omega)) ∈ φs.zip a := by
      rw [List.mem_iff_getElem]
      exact ⟨k, by simp; omega, by simp⟩
    obtain ⟨t, hm⟩ := zip_third (r := (realmOf o).getD .sym) hl hp
    have hs : (realmOf o).getD .sym = .sym := by
      cases o <;> first | rfl | exact absurd rfl he
    have hk' : a[k]'(by omega) ∈ a := List.getElem_mem _
    refine tl.tags (φs[k], (realmOf o).getD .sym, a[k]'(by omega), t) hm hs (realm_sym ?_)
    have := hr _ hk'
    rwa [hs] at this

/-! ## Operators -/

theorem app2_ty {decl tbl C g s₁ s₂ s a b} (hF : FnSrt decl tbl g [s₁, s₂] s) (ha : HasSrt decl tbl C a s₁) (hb : HasSrt decl tbl C b s₂) :
    HasSrt decl tbl C (.app g [a, b]) s := by
  refine .app hF rfl fun p hp => ?_
  simp only [List.zip_cons_cons, List.zip_nil_right, List.mem_cons, List.not_mem_nil, or_false] at hp
  rcases hp with rfl | rfl <;> assumption

/-- Equality of values of the same sort. -/
theorem eq2_ty {E : Env} {decl : Sg} {p : Realm → Px → Tm → St → PRes} (hp : PTy E decl p) (hg : PGood E p)
    {es a b sa sb st φ st' Γ L D G D'} (hs : Same .ev sa sb)
    (hsc : Sc Γ D st.bvars) (hL : ∀ x, x ∈ L ↔ x ∈ Γ.map Prod.fst) (hG : ∀ x, x ∈ G ↔ x ∈ scopeOf Γ)
    (hc : CleanL E L D [(.ev, a), (.ev, b)]) (hw : WsL E G D' [(.ev, sa, a), (.ev, sb, b)])
    (h : parseApp p .ev es eqInfo [a, b] st = .ok (φ, st')) : Ty decl Γ .ev .bool φ st st' := by
  obtain ⟨φs, sx, store, h1, ht, _, rfl⟩ := parseApp_seq h
  simp only [eqInfo, FSig.inst, FSig.realm, Option.getD, List.zip_cons_cons, List.zip_nil_right] at h1
  obtain ⟨tl, gl⟩ := seqP_ty (E := E) (decl := decl) (fun a : Px × Tm => p .ev a.1 a.2)
    (zs := [(.ev, sa, a), (.ev, sb, b)]) (.cons ⟨fun _ => hp _ _ _ _, hg _ _ _⟩ (.cons ⟨fun _ => hp _ _ _ _, hg _ _ _⟩ .nil))
    (st := { st with store := st.store ++ [none, none] }) hsc hL hG hc hw h1
  obtain ⟨x, y, rfl⟩ : ∃ x y, φs = [x, y] := by
    match φs, tl.len with
    | [x, y], _ => exact ⟨x, y, rfl⟩
  refine ⟨fun C hC => ?_, fun e => (by cases e), fun k => ht ▸ tl.tbl k⟩
  rw [ht]
  have tx := tl.ty C hC (x, .ev, sa, a) (by simp)
  have ty := tl.ty C hC (y, .ev, sb, b) (by simp)
  simp only at tx ty
  rw [← norm_same hs] at ty
  exact app2_ty .eq tx ty

theorem zip_map_third {as : List (Fm PF)} {r : Realm} {s : Srt} {ts : List Tm} (hl : as.length = ts.length) {x : Fm PF}
    (h : x ∈ as) : ∃ t, (x, r, s, t) ∈ as.zip (ts.map fun t => (r, s, t)) := by
  induction as generalizing ts with
  | nil => cases h
  | cons y as ih =>
    cases ts with
    | nil => cases hl
    | cons t ts =>
      simp only [List.zip_cons_cons, List.map_cons, List.mem_cons] at h ⊢
      rcases h with rfl | h
      · exact ⟨t, .inl rfl⟩
      · obtain ⟨u, hu⟩ := ih (by simpa using hl) h
        exact ⟨u, .inr hu⟩

/-- Conjunctions and disjunctions of formulas. -/
theorem nary_ty {E : Env} {decl : Sg} {p : Realm → Px → Tm → St → PRes} (hp : PTy E decl p) (hg : PGood E p)
    {g es ts st φ st' Γ L D G D'} (hF : ∀ tbl n, FnSrt decl tbl g (List.replicate n .bool) .bool)
    (hsc : Sc Γ D st.bvars) (hL : ∀ x, x ∈ L ↔ x ∈ Γ.map Prod.fst) (hG : ∀ x, x ∈ G ↔ x ∈ scopeOf Γ)
    (hc : CleanL E L D (ts.map fun t => (Realm.ev, t))) (hw : WsL E G D' (ts.map fun t => (Realm.ev, Srt.bool, t)))
    (h : parseApp p .ev es ⟨g, .nary, false⟩ ts st = .ok (φ, st')) : Ty decl Γ .ev .bool φ st st' := by
  obtain ⟨φs, sx, store, h1, ht, _, rfl⟩ := parseApp_seq h
  simp only [FSig.inst, FSig.realm, Option.getD] at h1
  have hf : ∀ ts : List Tm, List.Forall₂ (fun (a : Px × Tm) (z : Realm × Srt × Tm) => (∀ s, QTy E decl (z.1, s, z.2.2) (p .ev a.1 a.2)) ∧
      QGood E (z.1, z.2.2) (p .ev a.1 a.2)) ((List.replicate ts.length (Px.stat .bool)).zip ts) (ts.map fun t => (Realm.ev, Srt.bool, t)) := by
    intro ts
    induction ts with
    | nil => exact .nil
    | cons t ts ih =>
      simp only [List.length_cons, List.replicate_succ, List.zip_cons_cons, List.map_cons]
      exact .cons ⟨fun _ => hp _ _ _ _, hg _ _ _⟩ ih
  obtain ⟨tl, gl⟩ := seqP_ty (E := E) (decl := decl) (fun a : Px × Tm => p .ev a.1 a.2) (hf ts)
    (st := { st with store := st.store }) hsc hL hG (by simpa [List.map_map, Function.comp_def] using hc) hw h1
  have hlen : φs.length = ts.length := by rw [tl.len]; simp
  refine ⟨fun C hC => ?_, fun e => (by cases e), fun k => ht ▸ tl.tbl k⟩
  rw [ht]
  have : buildApp .ev ⟨g, .nary, false⟩ store (FSig.inst st.store ts.length (.nary)).2.1 φs = .app g φs := by
    simp [buildApp, FInfo.frealm, FSig.realm]
  rw [this]
  refine .app (hF _ φs.length) (by simp) fun q hq => ?_
  have h2 := List.eq_of_mem_replicate (List.of_mem_zip hq).2
  obtain ⟨t, hm⟩ := zip_map_third (r := .ev) (s := .bool) hlen (List.of_mem_zip hq).1
  rw [h2]
  exact tl.ty C hC _ hm

theorem foldl_ty {decl tbl C g} (hF : FnSrt decl tbl g [.condition, .condition] .condition) : ∀ (l : List (Fm PF)) (a : Fm PF),
    HasSrt decl tbl C a .condition → (∀ b ∈ l, HasSrt decl tbl C b .condition) →
    HasSrt decl tbl C (l.foldl (fun a b => .app g [a, b]) a) .condition
  | [], _, h, _ => h
  | b :: l, _, h, hl => foldl_ty hF l _ (app2_ty hF h (hl b (by simp))) fun b hb => hl b (by simp [hb])

/-- Conjunctions and disjunctions of conditions. -/
theorem symInfix_ty {E : Env} {decl : Sg} {p : Realm → Px → Tm → St → PRes} (hp : PTy E decl p) (hg : PGood E p)
    {g es ts st φ st' Γ L D G D'} (hF : ∀ tbl, FnSrt decl tbl g [.condition, .condition] .condition)
    (hsc : Sc Γ D st.bvars) (hL : ∀ x, x ∈ L ↔ x ∈ Γ.map Prod.fst) (hG : ∀ x, x ∈ G ↔ x ∈ scopeOf Γ)
    (hc : CleanL E L D (ts.map fun t => (Realm.sym, t))) (hw : WsL E G D' (ts.map fun t => (Realm.sym, Srt.condition, t)))
    (h : symInfix (p .sym) g es ts st = .ok (φ, st')) : Ty decl Γ .sym .condition φ st st' := by
  obtain ⟨a, φs, h1, rfl⟩ := symInfix_ok _ _ _ _ _ _ _ h
  have hf : ∀ ts : List Tm, List.Forall₂ (fun (t : Tm) (z : Realm × Srt × Tm) => (∀ s, QTy E decl (z.1, s, z.2.2) (p .sym es t)) ∧
      QGood E (z.1, z.2.2) (p .sym es t)) ts (ts.map fun t => (Realm.sym, Srt.condition, t)) := by
    intro ts
    induction ts with
    | nil => exact .nil
    | cons t ts ih => exact .cons ⟨fun _ => hp _ _ _ _, hg _ _ _⟩ ih
  obtain ⟨tl, gl⟩ := seqP_ty (E := E) (decl := decl) (fun t => p .sym es t) (hf ts) hsc hL hG
    (by simpa [List.map_map, Function.comp_def] using hc) hw h1
  have hlen : (a :: φs).length = ts.length := by rw [tl.len]; simp
  have hall : ∀ C, Agree C Γ → ∀ b ∈ a :: φs, HasSrt decl st'.tbl C b .condition := by
    intro C hC b hb
    obtain ⟨t, hm⟩ := zip_map_third (r := .sym) (s := .condition) hlen hb
    exact tl.ty C hC _ hm
  refine ⟨fun C hC => ?_, fun _ _ v hv => ?_, tl.tbl⟩
  · exact foldl_ty (hF _) _ _ (hall C hC _ (by simp)) fun b hb => hall C hC b (by simp [hb])
  · obtain ⟨b, hb, hv⟩ := foldl_occ g v φs a hv
    obtain ⟨t, hm⟩ := zip_map_third (r := .sym) (s := .condition) hlen hb
    exact tl.tags _ hm rfl (by simp [realmOf]) v hv

theorem pairs_ws {E : Env} {r : Realm} {G D} : ∀ {ts : List Tm}, (∀ t ∈ ts, leak t = []) → (∀ t ∈ ts, Ws E .sym G D t .message) →
    WsL E G D ((pairTerms .hardEq ts).map fun t => (r, propSort r, t))
  | [], _, _ => .nil
  | [_], _, _ => .nil
  | a :: b :: l, h1, h2 => by
    simp only [pairTerms, List.map_cons]
    have la := h1 a (by simp)
    have lb := h1 b (by simp)
    refine .cons (s' := .condition) (.hardEq (.cons (h2 a (by simp)) Same.rfl' (.cons ?_ Same.rfl' .nil))) (by cases r <;> rfl) ?_
    · rw [la]; exact h2 b (by simp)
    · simp only [leak, leaks, la, lb, List.append_nil, List.nil_append]
      exact pairs_ws (fun t ht => h1 t (List.mem_cons_of_mem _ ht)) (fun t ht => h2 t (List.mem_cons_of_mem _ ht))

/-- A term with another sort that is the same in the realm. -/
theorem Ty.cast {decl Γ r s s' φ st st'} (h : Ty decl Γ r s φ st st') (hs : Same r s s') : Ty decl Γ r s' φ st st' where
  ty C hC := by rw [← norm_same hs]; exact h.ty C hC
  tags hr he := by
    subst hr
    rw [← realm_same hs] at he
    exact h.tags rfl he
  tbl := h.tbl

theorem infx_ty {E : Env} {decl : Sg} {p : Realm → Px → Tm → St → PRes} (hp : PTy E decl p) (hg : PGood E p)
    {r es op ts s st φ st' Γ L D G D'}
    (hsc : Sc Γ D st.bvars) (hL : ∀ x, x ∈ L ↔ x ∈ Γ.map Prod.fst) (hG : ∀ x, x ∈ G ↔ x ∈ scopeOf Γ)
    (hc : Clean E r L D (.infx op ts)) (hw : Ws E r G D' (.infx op ts) s)
    (h : parseInfix p E r es op ts st = .ok (φ, st')) : Ty decl Γ r s φ st st' := by
  have nn : ∀ {i : FInfo} {o : Srt}, i.isName = false → o ≠ .name → (i.isName = true ↔ o = .name) := by
    intro i o h1 h2
    rw [h1]
    exact ⟨fun h => (by cases h), fun h => absurd h h2⟩
  cases hw with
  | hardEq hw =>
    cases hc with
    | hardEq2 hc =>
      simp only [parseInfix, List.length_cons, List.length_nil, if_true] at h
      exact fixed_ty hp hg (i := taEqInfo) (a := [.message, .message]) (o := .condition) (args := [_, _]) rfl .taEq
        (nn rfl (by simp)) (by simp [taEqInfo, RealmsOk, FSig.args, FSig.realm, realmOf, argRealm]) rfl hsc hL hG hc hw h
    | hardEqN hl => simp at hl
  | chain h3 h1 h2 =>
    cases hc with
    | hardEq2 hc => simp at h3
    | hardEqN hl k1 k2 =>
      simp only [parseInfix, if_neg hl] at h
      have hne : pairTerms .hardEq ts ≠ [] := by
        match ts, h3 with
        | _ :: _ :: _, _ => simp [pairTerms]
      refine Ty.cast (s := propSort r) ?_ (by cases r <;> rfl)
      exact hp r es _ (propSort r) st Γ L D G D' φ st' hsc hL hG (.and (pairs_clean ts k1 k2)) (.conn (.inl rfl) hne (pairs_ws h1 h2)) h
  | eqEv ha hb hs =>
    cases hc with
    | eqEv hc =>
      simp only [parseInfix] at h
      exact eq2_ty hp hg hs hsc hL hG hc (.cons ha Same.rfl' (.cons hb Same.rfl' .nil)) h
  | eqSym hw =>
    cases hc with
    | eqSym hc =>
      simp only [parseInfix] at h
      exact hp _ _ _ _ st Γ L D G D' φ st' hsc hL hG hc (.hardEq hw) h
  | eqChain h3 h1 h2 =>
    cases hc with
    | eqSym hc =>
      simp only [parseInfix] at h
      exact hp _ _ _ _ st Γ L D G D' φ st' hsc hL hG hc (.chain h3 h1 h2) h
  | neq hw =>
    have hs := eq_sort hw
    subst hs
    cases hc with
    | neq hc =>
      simp only [parseInfix, parseApplication] at h
      rw [← funOf_eq, funOf_not] at h
      obtain ⟨j, hj, h⟩ := Out.bind_ok h
      cases hj
      have := fixed_ty hp hg (i := notInfo r) (a := [propSort r]) (o := propSort r) (args := [.infx .eq ts]) (by cases r <;> rfl)
        (by cases r; exact .taNot; exact .not) (nn (by cases r <;> rfl) (by cases r <;> simp [propSort]))
        (by cases r <;> simp [notInfo, RealmsOk, FSig.args, FSig.realm, realmOf, argRealm]) rfl hsc hL hG
        (by cases r <;> exact .cons hc .nil) (by rw [realm_prop]; exact .cons hw Same.rfl' .nil) h
      rwa [outOf_prop] at this
  | iff ha hsa hb hsb =>
    cases hc with
    | iff hc =>
      simp only [parseInfix] at h
      exact eq2_ty hp hg (hsa.symm.trans hsb) hsc hL hG hc (.cons ha Same.rfl' (.cons hb Same.rfl' .nil)) h
  | implies hw =>
    cases hc with
    | implies hc =>
      simp only [parseInfix] at h
      have := fixed_ty hp hg (i := impInfo r) (a := [propSort r, propSort r]) (o := propSort r) (args := [_, _]) (by cases r <;> rfl)
        (by cases r; exact .taImp; exact .imp) (nn (by cases r <;> rfl) (by cases r <;> simp [propSort]))
        (by cases r <;> simp [impInfo, RealmsOk, FSig.args, FSig.realm, realmOf, argRealm]) rfl hsc hL hG
        (by cases r <;> exact hc) (by rw [realm_prop]; exact hw) h
      rwa [outOf_prop] at this
  | conn ho hne hw =>
    rcases ho with rfl | rfl
    · cases hc with
      | and hc =>
        cases r with
        | ev => exact nary_ty hp hg (fun _ _ => .and) hsc hL hG hc hw h
        | sym => exact symInfix_ty hp hg (fun _ => .taAnd) hsc hL hG hc hw h
    · cases hc with
      | or hc =>
        cases r with
        | ev => exact nary_ty hp hg (fun _ _ => .or) hsc hL hG hc hw h
        | sym => exact symInfix_ty hp hg (fun _ => .taOr) hsc hL hG hc hw h

/-! ## Contexts of scopes -/

/-- The context of the bound variables. -/
def ctxOf (bv : List (String × Var)) : Ctx := fun i => (bv[i]?).map fun p => p.2.sort

theorem Sc.at {Γ D bv} (h : Sc Γ D bv) {p : String × Var} (hp : p ∈ Γ) : bv[p.2.id]? = some p := by
  obtain ⟨i, hi, he⟩ := List.getElem_of_mem (List.mem_of_find?_eq_some (h.live p hp))
  have h1 : bv[i]? = some p := by rw [List.getElem?_eq_getElem hi, he]
  rw [h.ids i p h1]
  exact h1

theorem Sc.agree {Γ D bv} (h : Sc Γ D bv) : Agree (ctxOf bv) Γ := by
  intro p hp
  simp [ctxOf, h.at hp]

theorem Sc.uniq {Γ D bv} (h : Sc Γ D bv) {p q : String × Var} (hp : p ∈ Γ) (hq : q ∈ Γ) (e : p.2.id = q.2.id) : p = q := by
  have h1 := h.at hp
  rw [e, h.at hq] at h1
  exact (Option.some.inj h1).symm

/-- From a scope to the parameters and bound variables of a created function. -/
theorem entry_ctx {decl tbl Γ D bv bs fr φ s} (hsc : Sc Γ D bv) (hbs : ∀ w ∈ bs, ∃ p ∈ Γ, p.2 = w) (hfr : ∀ w ∈ fr, ∃ p ∈ Γ, p.2 = w)
    (hv : ∀ v, OccursFree v φ → (∃ p ∈ Γ, p.2 = v) ∧ (v.id ∈ bs.map Var.id ∨ v.id ∈ fr.map Var.id))
    (h : ∀ C, Agree C Γ → HasSrt decl tbl C φ s) : HasSrt decl tbl (bindC (bindC (fun _ => none) fr) bs) φ s := by
  refine (h _ hsc.agree).congr _ fun v ho => ?_
  obtain ⟨⟨p, hp, rfl⟩, hi⟩ := hv v ho
  rw [hsc.agree p hp]
  have hall : ∀ {l : List Var}, (∀ w ∈ l, ∃ q ∈ Γ, q.2 = w) → ∀ w ∈ l, w.id = p.2.id → w.sort = p.2.sort := by
    intro l hl w hw e
    obtain ⟨q, hq, rfl⟩ := hl w hw
    rw [hsc.uniq hq hp e]
  refine (bindC_all bs (hall hbs) ?_).symm
  rcases hi with hi | hi
  · exact .inl hi
  · exact .inr (bindC_all fr (hall hfr) (.inl hi))

theorem EntrySrt.mono {decl tbl tbl' q} (h : EntrySrt decl tbl q) (hp : tbl <+: tbl') : EntrySrt decl tbl' q := by
  cases q with
  | quant => exact HasSrt.mono h hp
  | find => exact ⟨h.1.mono hp, h.2.1.mono hp, h.2.2.mono hp⟩

theorem TblSrt.add {decl tbl q} (h : TblSrt decl tbl) (hq : EntrySrt decl tbl q) : TblSrt decl (tbl ++ [q]) := by
  intro x hx
  rcases List.mem_append.1 hx with hx | hx
  · exact (h x hx).mono (List.prefix_append _ _)
  · simp only [List.mem_singleton] at hx
    subst hx
    exact hq.mono (List.prefix_append _ _)

theorem app1_ty {decl tbl C g s s' a} (hF : FnSrt decl tbl g [s] s') (ha : HasSrt decl tbl C a s) : HasSrt decl tbl C (.app g [a]) s' := by
  refine .app hF rfl fun p hp => ?_
  simp only [List.zip_cons_cons, List.zip_nil_right, List.mem_singleton] at hp
  subst hp
  exact ha

theorem vars_ty {decl tbl C g s} {fr : List Var} (hF : FnSrt decl tbl g (fr.map Var.sort) s) (h : ∀ w ∈ fr, C w.id = some w.sort) :
    HasSrt decl tbl C (.app g (fr.map .var)) s := by
  refine .app hF (by simp) fun p hp => ?_
  rw [List.zip_map', List.mem_map] at hp
  obtain ⟨w, hw, rfl⟩ := hp
  exact .var (h w hw)

theorem sorts_sorted {E : Env} {vs : List Bnd} {Δ : List (String × Srt)}
    (h : List.Forall₂ (fun b d => d.1 = b.1 ∧ E.sorts b.2 = some d.2) vs Δ) : Δ = sorted E vs := by
  induction h with
  | nil => rfl
  | cons h _ ih =>
    rename_i b d vs Δ _
    obtain ⟨h1, h2⟩ := h
    rw [ih]
    simp only [sorted, List.map_cons, h2, Option.getD_some, ← h1]

theorem scope_num (n : Nat) (l : List (String × Srt)) : scopeOf (numFrom n l) = l := by
  induction l generalizing n with
  | nil => rfl
  | cons b l ih =>
    have := ih (n + 1)
    simp only [scopeOf, numFrom, List.map_cons] at this ⊢
    rw [this]

theorem scope_ext {G Γ} (hG : ∀ x, x ∈ G ↔ x ∈ scopeOf Γ) (n : Nat) (l : List (String × Srt)) :
    ∀ x, x ∈ l ++ G ↔ x ∈ scopeOf (extS (numFrom n l) Γ) := by
  intro x
  conv => lhs; rw [List.mem_append, ← scope_num n l, hG]
  simp only [scopeOf, List.mem_map, mem_extS]
  constructor
  · rintro (⟨p, hp, e⟩ | ⟨p, hp, e⟩)
    · exact ⟨p, .inl hp, e⟩
    · exact ⟨p, .inr hp, e⟩
  · rintro ⟨p, hp | hp, e⟩
    · exact .inl ⟨p, hp, e⟩
    · exact .inr ⟨p, hp, e⟩

theorem block_mem {n : Nat} {l : List (String × Srt)} {Γ : List (String × Var)} {v : Var} (h : ∃ p ∈ extS (numFrom n l) Γ, p.2 = v)
    (hb : v.id ∉ ((numFrom n l).map Prod.snd).map Var.id) : ∃ p ∈ Γ, p.2 = v := by
  obtain ⟨p, hp, rfl⟩ := h
  rcases (mem_extS _ _ _).1 hp with hp | hp
  · exact absurd (List.mem_map_of_mem (List.mem_map_of_mem hp)) hb
  · exact ⟨p, hp, rfl⟩

theorem norm_prop (r : Realm) : norm r (propSort r) = propSort r := by cases r <;> rfl

/-! ## Binders -/

theorem let_ty {E : Env} {decl : Sg} {p : Realm → Px → Tm → St → PRes} (hp : PTy E decl p) (hg : PGood E p)
    {r es b t₁ t₂ s st φ st' Γ L D G D'}
    (hsc : Sc Γ D st.bvars) (hL : ∀ x, x ∈ L ↔ x ∈ Γ.map Prod.fst) (hG : ∀ x, x ∈ G ↔ x ∈ scopeOf Γ)
    (hc : Clean E r L D (.letin b t₁ t₂)) (hw : Ws E r G D' (.letin b t₁ t₂) s)
    (h : parseLet p E r es b t₁ t₂ st = .ok (φ, st')) : Ty decl Γ r s φ st st' := by
  cases hw with
  | letin ws wn w1 wsame w2 =>
  rename_i so₀ s₁
  cases hc with
  | letin hs hr hfr hc1 hc2 =>
  rename_i x sx so
  rw [ws] at hs
  cases hs
  simp only [parseLet] at h
  obtain ⟨⟨v, sv⟩, hv, h⟩ := Out.bind_ok h
  obtain ⟨⟨φ₁, s₁'⟩, h₁, h⟩ := Out.bind_ok h
  obtain ⟨⟨φ₂, s₂⟩, h₂, h⟩ := Out.bind_ok h
  cases h
  obtain ⟨so', hs', rfl, rfl⟩ := parseBinding_ok hv
  rw [ws] at hs'
  cases hs'
  have hxb : x ∉ st.bvars.map Prod.fst := by
    cases hE : E.shadowing with
    | true => exact hsc.not_mem (fun h => (hfr hE).1 ((hL x).2 h)) (hfr hE).2
    | false => exact parseBinding_fresh hE hv
  have t1 := (hp r _ t₁ _ _ Γ L (x :: D) G _ φ₁ s₁' (hsc.pushDead x so₀) hL hG hc1 w1 h₁).cast wsame.symm
  have g1 := hg r _ t₁ _ Γ L (x :: D) φ₁ s₁' (hsc.pushDead x so₀) hL hc1 h₁
  obtain ⟨lk1, e1, n1⟩ := g1.bv
  have sc2 : Sc ((x, ⟨st.bvars.length, so₀⟩) :: Γ) (leak t₁ ++ D) s₁'.bvars := by
    rw [e1, ← n1]
    exact (hsc.push hxb so₀).extend (by have := g1.ids; rw [e1] at this; exact this)
  have hL2 : ∀ y, y ∈ x :: L ↔ y ∈ ((x, (⟨st.bvars.length, so₀⟩ : Var)) :: Γ).map Prod.fst := by intro y; simp [hL]
  have hG2 : ∀ y, y ∈ (x, so₀) :: G ↔ y ∈ scopeOf ((x, (⟨st.bvars.length, so₀⟩ : Var)) :: Γ) := by
    intro y
    show _ ↔ y ∈ (x, so₀) :: scopeOf Γ
    simp [hG]
  have t2 := hp r es t₂ _ s₁' _ (x :: L) _ _ _ φ₂ s₂ sc2 hL2 hG2 hc2 w2 h₂
  have g2 := hg r es t₂ s₁' _ (x :: L) _ φ₂ s₂ sc2 hL2 hc2 h₂
  have hlen : st.bvars.length < s₁'.bvars.length := by rw [e1]; simp
  have hΓlt := hsc.lt
  have hnorm := norm_realm hr
  refine ⟨fun C hC => ?_, ?_, fun k => t2.tbl (t1.tbl k)⟩
  · have hC2 : Agree (fun i => if i = st.bvars.length then some so₀ else C i) ((x, ⟨st.bvars.length, so₀⟩) :: Γ) := by
      intro q hq
      rcases List.mem_cons.1 hq with rfl | hq
      · simp
      · have := hΓlt q hq
        simp only
        rw [if_neg (by omega)]
        exact hC q hq
    refine (t2.ty _ hC2).one (k := st.bvars.length) (so := so₀) (fun y hy => ?_) (by simp) ?_ C ?_
    · have := g2.bnd y hy
      omega
    · intro C'' hC''
      have := t1.ty C'' ?_
      · rw [hnorm] at this
        exact this.mono g2.tbl.pre
      · intro q hq
        have := hΓlt q hq
        rw [hC'' _ this, if_neg (by omega)]
        exact hC q hq
    · intro i hi
      simp [hi]
  · rintro rfl he v hv
    obtain ⟨w, hw, hv⟩ := occ_apply _ v φ₂ (fun y hy w hw => by
      have := g2.bnd y hy
      simp only [Subst.oneVar]
      rw [if_neg (show w.id ≠ st.bvars.length by omega)]) hv
    obtain ⟨⟨q, hq, rfl⟩, hqs⟩ := t2.tags rfl he w hw
    simp only [Subst.oneVar] at hv
    split at hv
    · exact t1.tags rfl (realm_sym hr) v hv
    · rename_i hne
      cases hv
      rcases List.mem_cons.1 hq with rfl | hq
      · exact absurd rfl hne
      · exact ⟨⟨q, hq, rfl⟩, hqs⟩

theorem ite_ty {E : Env} {decl : Sg} {p : Realm → Px → Tm → St → PRes} (hp : PTy E decl p) (hg : PGood E p)
    {r es c a b s st φ st' Γ L D G D'}
    (hsc : Sc Γ D st.bvars) (hL : ∀ x, x ∈ L ↔ x ∈ Γ.map Prod.fst) (hG : ∀ x, x ∈ G ↔ x ∈ scopeOf Γ)
    (hc : Clean E r L D (.ite c a b)) (hw : Ws E r G D' (.ite c a b) s)
    (h : parseIte p r es c a b st = .ok (φ, st')) : Ty decl Γ r s φ st st' := by
  cases hc with
  | ite hc1 hc2 hc3 =>
  simp only [parseIte] at h
  obtain ⟨⟨φ₁, s₁⟩, h₁, h⟩ := Out.bind_ok h
  obtain ⟨⟨φ₂, s₂⟩, h₂, h⟩ := Out.bind_ok h
  obtain ⟨⟨φ₃, s₃⟩, h₃, h⟩ := Out.bind_ok h
  cases h
  have key : ∀ sc sa sb, WsL E G D' [(r, sc, c), (r, sa, a), (r, sb, b)] →
      TyL decl Γ [(r, sc, c), (r, sa, a), (r, sb, b)] [φ₁, φ₂, φ₃] st s₃ := by
    intro sc sa sb hw
    refine (seqP_ty (E := E) (decl := decl) (fun a : Px × Tm => p r a.1 a.2) (l := [(iteCond r, c), (iteBr r es, a), (iteBr r es, b)])
      (zs := [(r, sc, c), (r, sa, a), (r, sb, b)]) ?_ hsc hL hG (.cons hc1 (.cons hc2 (.cons hc3 .nil))) hw
      (by simp only [seqP, h₁, h₂, h₃, Out.bind])).1
    exact .cons ⟨fun _ => hp _ _ _ _, hg _ _ _⟩ (.cons ⟨fun _ => hp _ _ _ _, hg _ _ _⟩ (.cons ⟨fun _ => hp _ _ _ _, hg _ _ _⟩ .nil))
  have app3 : ∀ {tbl C g s₁ s₂ s₃ s'}, FnSrt decl tbl g [s₁, s₂, s₃] s' → HasSrt decl tbl C φ₁ s₁ → HasSrt decl tbl C φ₂ s₂ →
      HasSrt decl tbl C φ₃ s₃ → HasSrt decl tbl C (.app g [φ₁, φ₂, φ₃]) s' := by
    intro tbl C g s₁ s₂ s₃ s' hF k1 k2 k3
    refine .app hF rfl fun q hq => ?_
    simp only [List.zip_cons_cons, List.zip_nil_right, List.mem_cons, List.not_mem_nil, or_false] at hq
    rcases hq with rfl | rfl | rfl <;> assumption
  cases hw with
  | iteEv w1 e1 w2 w3 e2 =>
    rename_i sc sb
    have tl := key .bool s s (.cons w1 e1 (.cons w2 Same.rfl' (.cons w3 e2 .nil)))
    refine ⟨fun C hC => ?_, fun e => (by cases e), tl.tbl⟩
    exact app3 .ite (tl.ty C hC (φ₁, .ev, .bool, c) (by simp)) (tl.ty C hC (φ₂, .ev, s, a) (by simp)) (tl.ty C hC (φ₃, .ev, s, b) (by simp))
  | iteSym w1 w2 w3 =>
    have tl := key .condition .message .message (.cons w1 Same.rfl' (.cons w2 Same.rfl' (.cons w3 Same.rfl' .nil)))
    refine ⟨fun C hC => ?_, fun _ _ v hv => ?_, tl.tbl⟩
    · exact app3 .taIte (tl.ty C hC (φ₁, .sym, .condition, c) (by simp)) (tl.ty C hC (φ₂, .sym, .message, a) (by simp))
        (tl.ty C hC (φ₃, .sym, .message, b) (by simp))
    · obtain ⟨x, hx, ho⟩ := occ_app hv
      clear hv
      simp only [List.mem_cons, List.not_mem_nil, or_false] at hx
      rcases hx with rfl | rfl | rfl
      · exact tl.tags (x, .sym, .condition, c) (by simp) rfl (by simp [realmOf]) v ho
      · exact tl.tags (x, .sym, .message, a) (by simp) rfl (by simp [realmOf]) v ho
      · exact tl.tags (x, .sym, .message, b) (by simp) rfl (by simp [realmOf]) v ho

theorem quant_ty {E : Env} {decl : Sg} {p : Realm → Px → Tm → St → PRes} (hp : PTy E decl p) (hg : PGood E p)
    {r es k vs b s st φ st' Γ L D G D'}
    (hsc : Sc Γ D st.bvars) (hL : ∀ x, x ∈ L ↔ x ∈ Γ.map Prod.fst) (hG : ∀ x, x ∈ G ↔ x ∈ scopeOf Γ)
    (hc : Clean E r L D (.quant k vs b)) (hw : Ws E r G D' (.quant k vs b) s)
    (h : parseQuant p E r es k vs b st = .ok (φ, st')) : Ty decl Γ r s φ st st' := by
  cases hw with
  | quant wb w1 wsame =>
  cases hc with
  | quant hfr hcb =>
  have hΔ := sorts_sorted wb.sorts
  subst hΔ
  simp only [parseQuant] at h
  obtain ⟨store, _, h⟩ := Out.bind_ok h
  obtain ⟨⟨ws, s₁⟩, h₁, h⟩ := Out.bind_ok h
  obtain ⟨⟨ψ, s₂⟩, h₂, h⟩ := Out.bind_ok h
  obtain ⟨rfl, rfl⟩ := parseBindings_ok vs h₁
  have hfresh : (vs.map Prod.fst).Nodup ∧ ∀ x ∈ vs.map Prod.fst, x ∉ st.bvars.map Prod.fst := by
    cases hE : E.shadowing with
    | true => exact ⟨(hfr hE).1, fun x hx => hsc.not_mem (fun h => ((hfr hE).2 x hx).1 ((hL x).2 h)) ((hfr hE).2 x hx).2⟩
    | false => exact parseBindings_fresh (st := { st with store := store }) hE vs h₁
  have scb := hsc.block (sorted E vs) (by rw [sorted_names]; exact hfresh.1) (by rw [sorted_names]; exact hfresh.2)
  have hL2 : ∀ x, x ∈ vs.map Prod.fst ++ L ↔ x ∈ (extS (numFrom st.bvars.length (sorted E vs)) Γ).map Prod.fst := by
    intro x; rw [names_extS, numFrom_names, sorted_names]; simp only [List.mem_append, hL]
  have t := (hp r _ b _ _ _ (vs.map Prod.fst ++ L) D _ _ ψ s₂ scb hL2 (scope_ext hG _ _) hcb w1 h₂).cast wsame.symm
  have g := hg r _ b _ _ (vs.map Prod.fst ++ L) D ψ s₂ scb hL2 hcb h₂
  cases r with
  | ev =>
    dsimp only at h
    have hφ := (Prod.mk.inj (Out.ok.inj h)).1
    have hst := (Prod.mk.inj (Out.ok.inj h)).2
    subst hφ hst
    exact ⟨fun C hC => .quant (t.ty _ (hC.block hsc.lt)), fun e => (by cases e), t.tbl⟩
  | sym =>
    dsimp only [allocTA] at h
    have hφ := (Prod.mk.inj (Out.ok.inj h)).1
    have hst := (Prod.mk.inj (Out.ok.inj h)).2
    subst hφ hst
    have tags := t.tags rfl (by simp [propSort, realmOf])
    have hfree : ∀ w ∈ taFree ((numFrom st.bvars.length (sorted E vs)).map Prod.snd) [ψ],
        (∃ q ∈ extS (numFrom st.bvars.length (sorted E vs)) Γ, q.2 = w) ∧ realmOf w.sort ≠ some .ev ∧ ∃ q ∈ Γ, q.2 = w := by
      intro w hw
      obtain ⟨⟨f, hf, ho⟩, hb⟩ := taFree_mem hw
      simp only [List.mem_singleton] at hf
      subst hf
      exact ⟨(tags w ho).1, (tags w ho).2, block_mem (tags w ho).1 hb⟩
    refine ⟨fun C hC => ?_, fun _ _ v hv => ?_, fun k => ?_⟩
    · refine vars_ty (.taQuant (k := _) (bs := _) (b := _) (by
        show (s₂.tbl ++ [_])[s₂.tbl.length]? = _
        rw [List.getElem?_append_right (Nat.le_refl _), Nat.sub_self]
        rfl)) fun w hw => ?_
      obtain ⟨_, _, q, hq, rfl⟩ := hfree w hw
      exact hC q hq
    · obtain ⟨_, h2, h3⟩ := hfree v (occ_vars hv)
      exact ⟨h3, h2⟩
    · refine (t.tbl k).add (entry_ctx scb ?_ (fun w hw => (hfree w hw).1) (fun v hv => ⟨(tags v hv).1, taFree_ok (by simp) hv⟩) t.ty)
      intro w hw
      obtain ⟨q, hq, rfl⟩ := List.mem_map.1 hw
      exact ⟨q, (mem_extS _ _ _).2 (.inl hq), rfl⟩

theorem find_ty {E : Env} {decl : Sg} {p : Realm → Px → Tm → St → PRes} (hp : PTy E decl p) (hg : PGood E p)
    {r es vs c a b s st φ st' Γ L D G D'}
    (hsc : Sc Γ D st.bvars) (hL : ∀ x, x ∈ L ↔ x ∈ Γ.map Prod.fst) (hG : ∀ x, x ∈ G ↔ x ∈ scopeOf Γ)
    (hc : Clean E r L D (.find vs c a b)) (hw : Ws E r G D' (.find vs c a b) s)
    (h : parseFind p E r es vs c a b st = .ok (φ, st')) : Ty decl Γ r s φ st st' := by
  cases hw with
  | find w1 wb w2 w3 =>
  cases hc with
  | find hcb hfr hcc hca =>
  have hΔ := sorts_sorted wb.sorts
  subst hΔ
  simp only [parseFind] at h
  obtain ⟨store, _, h⟩ := Out.bind_ok h
  obtain ⟨⟨ψb, sb⟩, hb, h⟩ := Out.bind_ok h
  obtain ⟨⟨ws, s₁⟩, h₁, h⟩ := Out.bind_ok h
  obtain ⟨⟨ψc, sc⟩, hcc', h⟩ := Out.bind_ok h
  obtain ⟨⟨ψa, sa⟩, ha, h⟩ := Out.bind_ok h
  obtain ⟨rfl, rfl⟩ := parseBindings_ok vs h₁
  have gb := hg .sym _ b { st with store := store } Γ L D ψb sb hsc hL hcb hb
  have tb := hp .sym _ b _ { st with store := store } Γ L D G _ ψb sb hsc hL hG hcb w1 hb
  have scb : Sc Γ (leak b ++ D) sb.bvars := gb.sc hsc
  have hLt := scb.lt
  have hfresh : (vs.map Prod.fst).Nodup ∧ ∀ x ∈ vs.map Prod.fst, x ∉ sb.bvars.map Prod.fst := by
    cases hE : E.shadowing with
    | true => exact ⟨(hfr hE).1, fun x hx => scb.not_mem (fun h => ((hfr hE).2 x hx).1 ((hL x).2 h)) ((hfr hE).2 x hx).2⟩
    | false => exact parseBindings_fresh hE vs h₁
  have scv := scb.block (sorted E vs) (by rw [sorted_names]; exact hfresh.1) (by rw [sorted_names]; exact hfresh.2)
  have hL' : ∀ x, x ∈ vs.map Prod.fst ++ L ↔ x ∈ (extS (numFrom sb.bvars.length (sorted E vs)) Γ).map Prod.fst := by
    intro x; rw [names_extS, numFrom_names, sorted_names]; simp only [List.mem_append, hL]
  have hG' := scope_ext hG sb.bvars.length (sorted E vs)
  have gc := hg .sym _ c _ _ _ _ ψc sc scv hL' hcc hcc'
  have tc := hp .sym _ c _ _ _ _ _ _ _ ψc sc scv hL' hG' hcc w2 hcc'
  have ga := hg .sym _ a _ _ _ _ ψa sa (gc.sc scv) hL' hca ha
  have ta := hp .sym _ a _ _ _ _ _ _ _ ψa sa (gc.sc scv) hL' hG' hca w3 ha
  dsimp only [allocTA] at h
  have hφ := (Prod.mk.inj (Out.ok.inj h)).1
  have hst := (Prod.mk.inj (Out.ok.inj h)).2
  subst hφ hst
  have gb' := tb.tags rfl (by simp [realmOf])
  have gc' := tc.tags rfl (by simp [realmOf])
  have ga' := ta.tags rfl (by simp [realmOf])
  have up : ∀ {v : Var}, (∃ q ∈ Γ, q.2 = v) → ∃ q ∈ extS (numFrom sb.bvars.length (sorted E vs)) Γ, q.2 = v := by
    rintro v ⟨q, hq, rfl⟩
    exact ⟨q, (mem_extS _ _ _).2 (.inr hq), rfl⟩
  have hall : ∀ f ∈ [ψc, ψa, ψb], ∀ w, OccursFree w f →
      (∃ q ∈ extS (numFrom sb.bvars.length (sorted E vs)) Γ, q.2 = w) ∧ realmOf w.sort ≠ some .ev := by
    intro f hf w ho
    simp only [List.mem_cons, List.not_mem_nil, or_false] at hf
    rcases hf with rfl | rfl | rfl
    · exact gc' w ho
    · exact ga' w ho
    · exact ⟨up (gb' w ho).1, (gb' w ho).2⟩
  have hfree : ∀ w ∈ taFree ((numFrom sb.bvars.length (sorted E vs)).map Prod.snd) [ψc, ψa, ψb],
      (∃ q ∈ extS (numFrom sb.bvars.length (sorted E vs)) Γ, q.2 = w) ∧ realmOf w.sort ≠ some .ev ∧ ∃ q ∈ Γ, q.2 = w := by
    intro w hw
    obtain ⟨⟨f, hf, ho⟩, hb⟩ := taFree_mem hw
    exact ⟨(hall f hf w ho).1, (hall f hf w ho).2, block_mem (hall f hf w ho).1 hb⟩
  have hbs : ∀ w ∈ (numFrom sb.bvars.length (sorted E vs)).map Prod.snd, ∃ q ∈ extS (numFrom sb.bvars.length (sorted E vs)) Γ, q.2 = w := by
    intro w hw
    obtain ⟨q, hq, rfl⟩ := List.mem_map.1 hw
    exact ⟨q, (mem_extS _ _ _).2 (.inl hq), rfl⟩
  have hty : ∀ C, Agree C Γ → HasSrt decl (sa.tbl ++ [.find ((numFrom sb.bvars.length (sorted E vs)).map Prod.snd)
      (taFree ((numFrom sb.bvars.length (sorted E vs)).map Prod.snd) [ψc, ψa, ψb]) ψc ψa ψb]) C
      (.app (.taq sa.tbl.length) ((taFree ((numFrom sb.bvars.length (sorted E vs)).map Prod.snd) [ψc, ψa, ψb]).map .var)) .message := by
    intro C hC
    refine vars_ty (.taFind (bs := (numFrom sb.bvars.length (sorted E vs)).map Prod.snd) (c := ψc) (l := ψa) (r := ψb)
      (by rw [List.getElem?_append_right (Nat.le_refl _)]; simp)) fun w hw => ?_
    obtain ⟨_, _, q, hq, rfl⟩ := hfree w hw
    exact hC q hq
  refine ⟨fun C hC => ?_, fun e _ v hv => ?_, fun k => ?_⟩
  · cases r with
    | sym => exact hty C hC
    | ev => exact app1_ty .evalMsg (hty C hC)
  · subst e
    obtain ⟨_, h2, h3⟩ := hfree v (occ_vars hv)
    exact ⟨h3, h2⟩
  · refine (ta.tbl (tc.tbl (tb.tbl k))).add ⟨?_, ?_, ?_⟩
    · exact (entry_ctx scv hbs (fun w hw => (hfree w hw).1) (fun v hv => ⟨(gc' v hv).1, taFree_ok (by simp) hv⟩) tc.ty).mono ga.tbl.pre
    · exact entry_ctx scv hbs (fun w hw => (hfree w hw).1) (fun v hv => ⟨(ga' v hv).1, taFree_ok (by simp) hv⟩) ta.ty
    · refine (entry_ctx (bs := []) scv (fun w hw => (by cases hw)) (fun w hw => (hfree w hw).1) (fun v hv => ⟨up (gb' v hv).1, .inr ?_⟩)
        (fun C hC => tb.ty C fun q hq => hC q ((mem_extS _ _ _).2 (.inr hq)))).mono (gc.tbl.trans ga.tbl).pre
      refine (taFree_ok (bound := (numFrom sb.bvars.length (sorted E vs)).map Prod.snd) (fs := [ψc, ψa, ψb]) (by simp) hv).resolve_left
        fun hm => ?_
      obtain ⟨p, hp, e⟩ := gb.free v hv
      have := hLt p hp
      simp only [List.map_map, List.mem_map, Function.comp] at hm
      obtain ⟨q, hq, e'⟩ := hm
      have := (numFrom_ge _ _ q hq).1
      omega

/-! ## Variables and functions of the environment -/

theorem eqRealm_sym {a b} (h : eqRealm .sym a b = true) : a = b := by
  simpa [eqRealm] using h

theorem unify_sym {st es s u} (h : Px.unify st .sym es (.stat s) = some u) : u.1 = s := by
  simp only [Px.unify] at h
  cases hg : es.get st with
  | none =>
    rw [hg] at h
    simp only [Px.get, Option.map_eq_some_iff] at h
    obtain ⟨_, _, rfl⟩ := h
    rfl
  | some s' =>
    rw [hg] at h
    simp only [Px.get] at h
    split at h
    · cases h
      exact eqRealm_sym ‹_›
    · cases h

theorem var_ty {decl Γ r es v s st φ st'} {x : String} (hm : (x, v) ∈ Γ) (hs : v.sort = s) (h : parseVar r es v st = .ok (φ, st')) :
    Ty decl Γ r s φ st st' := by
  subst hs
  simp only [parseVar] at h
  split at h
  · cases h
  · split at h
    · split at h
      · cases h
      · rename_i s hev g hg
        obtain ⟨store, _, h⟩ := Out.bind_ok h
        cases h
        refine ⟨fun C hC => ?_, fun e => (by cases e), id⟩
        have hv := hC _ hm
        simp only at hv
        cases hvs : v.sort <;> rw [hvs] at hg hv <;> simp only [evalSym, Option.some.injEq, reduceCtorEq] at hg
        · subst hg; exact app1_ty .evalMsg (.var hv)
        · subst hg; exact app1_ty .evalCond (.var hv)
    · rename_i r _ _ hne
      obtain ⟨u, hu, h⟩ := Out.bind_ok h
      cases h
      have hn : norm r v.sort = v.sort := by
        cases r with
        | sym => rfl
        | ev =>
          cases hvs : v.sort <;> first | rfl | exact (hne _ (by rw [hvs]; rfl) rfl).elim
      refine ⟨fun C hC => .var (by rw [hn]; exact hC _ hm), ?_, id⟩
      rintro rfl he w hw
      cases hw
      have := unify_sym (Out.ofOption_ok hu)
      rw [this]
      exact ⟨⟨_, hm, rfl⟩, he⟩

/-- What the environment and the built-in functions declare. -/
theorem funOf_ok {E : Env} {decl : Sg} (hE : DeclOk E decl) {r f i a o} (h : funOf E r f = some i) (hi : i.sig = .fixed a o) :
    FnSrt decl [] i.sym a o ∧ (i.isName = true ↔ o = .name) := by
  rw [funOf_eq] at h
  simp only [getFun] at h
  split at h
  · cases h
    cases r <;> cases hi <;> exact ⟨by constructor, by simp⟩
  · split at h
    · cases h
      cases r <;> cases hi <;> exact ⟨by constructor, by simp⟩
    · split at h
      · cases h
        cases r <;> cases hi <;> exact ⟨by constructor, by simp⟩
      · exact hE f i a o h hi

theorem cvar_ty {E : Env} {decl : Sg} (hE : DeclOk E decl) {p : Realm → Px → Tm → St → PRes} (hp : PTy E decl p) (hg : PGood E p)
    {r es x s st φ st' Γ L D G D'}
    (hsc : Sc Γ D st.bvars) (hL : ∀ x, x ∈ L ↔ x ∈ Γ.map Prod.fst) (hG : ∀ x, x ∈ G ↔ x ∈ scopeOf Γ)
    (hc : Clean E r L D (.cvar x)) (hw : Ws E r G D' (.cvar x) s)
    (h : parseApplication p E r es x none st = .ok (φ, st')) : Ty decl Γ r s φ st st' := by
  have hnames : x ∈ names G ↔ x ∈ Γ.map Prod.fst := by
    simp only [names, List.mem_map]
    constructor
    · rintro ⟨q, hq, rfl⟩
      obtain ⟨q', hq', rfl⟩ := List.mem_map.1 ((hG q).1 hq)
      exact ⟨q', hq', rfl⟩
    · rintro ⟨q, hq, rfl⟩
      exact ⟨(q.1, q.2.sort), (hG _).2 (List.mem_map.2 ⟨q, hq, rfl⟩), rfl⟩
  cases hw with
  | var hx hn =>
    obtain ⟨q, hq, e⟩ := List.mem_map.1 ((hG _).1 hx)
    cases e
    have hf := hsc.live q hq
    simp only [parseApplication, hf] at h
    exact var_ty (x := q.1) hq rfl h
  | const hx hxD hi hsig =>
    rename_i i o
    have hx' : x ∉ Γ.map Prod.fst := fun h => hx (hnames.2 h)
    cases hc with
    | cvarVar hx'' => exact absurd ((hL x).1 hx'') hx'
    | cvarFun _ hD =>
      simp only [parseApplication, find_none (hsc.not_mem hx' hD)] at h
      obtain ⟨j, hj, h⟩ := Out.bind_ok h
      have hj := Out.ofOption_ok hj
      rw [← funOf_eq, hi] at hj
      cases hj
      obtain ⟨f1, f2⟩ := funOf_ok hE hi hsig
      exact fixed_ty hp hg hsig f1 f2 (by rw [hsig]; intro s hs; cases hs) rfl hsc hL hG .nil (WsL.nil (D := D')) h

theorem app_ty {E : Env} {decl : Sg} (hE : DeclOk E decl) {p : Realm → Px → Tm → St → PRes} (hp : PTy E decl p) (hg : PGood E p)
    {r es f args s st φ st' Γ L D G D'}
    (hsc : Sc Γ D st.bvars) (hL : ∀ x, x ∈ L ↔ x ∈ Γ.map Prod.fst) (hG : ∀ x, x ∈ G ↔ x ∈ scopeOf Γ)
    (hc : Clean E r L D (.app f args)) (hw : Ws E r G D' (.app f args) s)
    (h : parseApplication p E r es f (some args) st = .ok (φ, st')) : Ty decl Γ r s φ st st' := by
  cases hw with
  | app wi wsig wl wa =>
  rename_i i a o
  cases hc with
  | app hi _ hr hca =>
  rw [wi] at hi
  cases hi
  simp only [parseApplication] at h
  obtain ⟨j, hj, h⟩ := Out.bind_ok h
  have hj := Out.ofOption_ok hj
  rw [← funOf_eq, wi] at hj
  cases hj
  obtain ⟨f1, f2⟩ := funOf_ok hE wi wsig
  exact fixed_ty hp hg wsig f1 f2 hr wl hsc hL hG hca wa h

/-! ## Macros -/

theorem num_get {n : Nat} {l : List (String × Srt)} {i : Nat} : (numFrom n l)[i]? = (l[i]?).map fun b => (b.1, (⟨n + i, b.2⟩ : Var)) := by
  induction l generalizing n i with
  | nil => simp [numFrom]
  | cons b l ih =>
    cases i with
    | zero => simp [numFrom]
    | succ i =>
      simp only [numFrom, List.getElem?_cons_succ, ih]
      congr 1
      funext b
      rw [show n + 1 + i = n + (i + 1) by omega]

/-- Inserting well-sorted terms for the parameters of a body. -/
theorem insert_ty {E : Env} {decl : Sg} {r : Realm} {l : List (String × Srt)} {as : List (Fm PF)} {body : Tm} {ψ : Fm PF} {s : Srt} {s₁ s₂ : St}
    (hl : as.length = l.length) (hnd : (l.map Prod.fst).Nodup) (hb : ψ.bound = [])
    (g : Good E r (extS (numFrom 0 l) []) body ψ s₁ s₂) (t : Ty decl (extS (numFrom 0 l) []) r s ψ s₁ s₂) :
    (∀ C, (∀ p ∈ as.zip l, HasSrt decl s₂.tbl C p.1 p.2.2) →
      HasSrt decl s₂.tbl C (Subst.apply (MSubst.get ((List.range as.length).zip as)) ψ) (norm r s)) ∧
    (r = .sym → realmOf s ≠ some .ev → ∀ v, OccursFree v (Subst.apply (MSubst.get ((List.range as.length).zip as)) ψ) →
      ∃ p ∈ as.zip l, realmOf p.2.2 ≠ some .ev ∧ OccursFree v p.1) := by
  have sc := Sc.body l hnd
  have hz : ∀ {k : Nat} (h : k < as.length), (as[k], l[k]'(by omega)) ∈ as.zip l := by
    intro k h
    rw [List.mem_iff_getElem]
    exact ⟨k, by simp; omega, by simp⟩
  constructor
  · intro C hC
    refine (t.ty _ sc.agree).insert hb fun w hw s' hs' => ?_
    simp only [ctxOf, num_get, Option.map_map, Option.map_eq_some_iff] at hs'
    obtain ⟨b, hb', hs'⟩ := hs'
    obtain ⟨hlt, hb'⟩ := List.getElem?_eq_some_iff.1 hb'
    rw [range_get, dif_pos (by omega)]
    have := hC _ (hz (k := w.id) (by omega))
    simp only [hb'] at this
    rw [← hs']
    exact this
  · rintro rfl he v hv
    obtain ⟨w, hw, hv⟩ := occ_apply _ v ψ (by rw [hb]; intro x hx; cases hx) hv
    obtain ⟨⟨q, hq, rfl⟩, hqs⟩ := t.tags rfl he w hw
    have hq' := sc.at hq
    rw [num_get] at hq'
    obtain ⟨b, hb', e⟩ := Option.map_eq_some_iff.1 hq'
    obtain ⟨hlt, hb'⟩ := List.getElem?_eq_some_iff.1 hb'
    rw [range_get, dif_pos (by omega)] at hv
    refine ⟨_, hz (k := q.2.id) (by omega), ?_, hv⟩
    simp only [hb']
    have : q.2.sort = b.2 := by rw [← e]
    rw [← this]
    exact hqs

theorem body_scope (l : List (String × Srt)) : ∀ x, x ∈ l ↔ x ∈ scopeOf (extS (numFrom 0 l) []) := by
  intro x
  have := scope_ext (G := []) (Γ := []) (by intro x; simp [scopeOf]) 0 l x
  simpa using this

theorem mac_ty {E : Env} {decl : Sg} {p : Realm → Px → Tm → St → PRes} (hp : PTy E decl p) (hg : PGood E p)
    {r es m args s st φ st' Γ L D G D'}
    (hsc : Sc Γ D st.bvars) (hL : ∀ x, x ∈ L ↔ x ∈ Γ.map Prod.fst) (hG : ∀ x, x ∈ G ↔ x ∈ scopeOf Γ)
    (hc : Clean E r L D (.mac m args)) (hw : Ws E r G D' (.mac m args) s)
    (h : parseMac p E r es m args st = .ok (φ, st')) : Ty decl Γ r s φ st st' := by
  cases hw with
  | mac wm wl wa wn wb =>
  rename_i c
  cases hc with
  | mac hm hlen hnd hca hcb hnb =>
  rw [wm] at hm
  cases hm
  simp only [parseMac, wm, if_pos hlen.symm] at h
  obtain ⟨⟨φs, s₁⟩, h₁, h⟩ := Out.bind_ok h
  obtain ⟨⟨χ, s₂⟩, h₂, h⟩ := Out.bind_ok h
  have hφ := (Prod.mk.inj (Out.ok.inj h)).1
  have hst' := (Prod.mk.inj (Out.ok.inj h)).2
  clear h
  subst hφ hst'
  rw [parseMacArgs_eq] at h₁
  have hf : ∀ (l : List ((String × Srt) × Tm)), List.Forall₂ (fun (a : (String × Srt) × Tm) (z : Realm × Srt × Tm) =>
      (∀ s, QTy E decl (z.1, s, z.2.2) (p ((realmOf a.1.2).getD r) (.stat a.1.2) a.2)) ∧
        QGood E (z.1, z.2.2) (p ((realmOf a.1.2).getD r) (.stat a.1.2) a.2)) l (l.map fun p => ((realmOf p.1.2).getD r, p.1.2, p.2)) := by
    intro l
    induction l with
    | nil => exact .nil
    | cons a l ih => exact .cons ⟨fun _ => hp _ _ _ _, hg _ _ _⟩ ih
  obtain ⟨tl, gl⟩ := seqP_ty (E := E) (decl := decl)
    (fun a : (String × Srt) × Tm => p ((realmOf a.1.2).getD r) (.stat a.1.2) a.2) (hf (c.params.zip args)) hsc hL hG
    (by rw [List.map_map]
        have := zip_realms r c.params args hlen
        simp only [Function.comp_def]
        rw [this]; exact hca) wa h₁
  have hlenφ : φs.length = c.params.length := by rw [tl.len]; simp [hlen]
  rw [numbered_eq] at h₂
  have gb := hg r es c.body _ (extS (numFrom 0 c.params) []) _ _ χ s₂ (Sc.body c.params hnd) (names_body c.params) hcb h₂
  have tb := hp r es c.body _ _ (extS (numFrom 0 c.params) []) _ _ _ _ χ s₂ (Sc.body c.params hnd) (names_body c.params)
    (body_scope c.params) hcb wb h₂
  obtain ⟨i1, i2⟩ := insert_ty hlenφ hnd (gb.nob hnb) gb tb
  dsimp only at *
  rw [← hlenφ]
  have hz : ∀ q ∈ φs.zip c.params, ∃ t, (q.1, (realmOf q.2.2).getD r, q.2.2, t) ∈
      φs.zip ((c.params.zip args).map fun p => ((realmOf p.1.2).getD r, p.1.2, p.2)) := by
    intro q hq
    obtain ⟨k, hk, rfl⟩ := List.getElem_of_mem hq
    simp only [List.length_zip] at hk
    refine ⟨args[k]'(by omega), ?_⟩
    rw [List.mem_iff_getElem]
    exact ⟨k, by simp; omega, by simp⟩
  refine ⟨fun C hC => ?_, fun e he v hv => ?_, fun k => tb.tbl (tl.tbl k)⟩
  · refine i1 C fun q hq => ?_
    obtain ⟨t, ht⟩ := hz q hq
    have := (tl.ty C hC _ ht).mono gb.tbl.pre
    have hn : norm ((realmOf q.2.2).getD r) q.2.2 = q.2.2 := by
      cases q.2.2 <;> cases r <;> rfl
    rwa [hn] at this
  · obtain ⟨q, hq, hs, hv⟩ := i2 e he v hv
    obtain ⟨t, ht⟩ := hz q hq
    refine tl.tags _ ht ?_ hs v hv
    subst e
    show (realmOf q.2.2).getD .sym = .sym
    revert hs
    cases q.2.2 <;> simp [realmOf]

theorem stepMac_ty {E : Env} {decl : Sg} (hE : DeclOk E decl) {p : Realm → Px → Tm → St → PRes} (hp : PTy E decl p) (hg : PGood E p)
    {r es f i c args s st φ st' Γ L D G D'} {body : StepInfo → Tm}
    (hsc : Sc Γ D st.bvars) (hL : ∀ x, x ∈ L ↔ x ∈ Γ.map Prod.fst) (hG : ∀ x, x ∈ G ↔ x ∈ scopeOf Γ)
    (hf : funOf E r f = some i) (hf' : E.functions f = some i) (hst : E.steps f = some c)
    (hsig : i.sig = .fixed (c.params.map (·.2)) .step) (hnm : i.isName = false) (hlen : args.length = c.params.length)
    (hre : RealmsOk r (c.params.map (·.2))) (hnd : (c.params.map (·.1) ++ ["in"]).Nodup)
    (hca : CleanL E L D (args.map fun t => (r, t))) (hcb : Clean E r (c.params.map (·.1) ++ ["in"]) [] (body c))
    (hnb : NoBind E r (body c))
    (hwa : WsL E G D' (expect r (c.params.map (·.2)) args)) (hwb : Ws E r (c.params ++ [("in", .message)]) [] (body c) s)
    (h : parseStepMac p E r es f args body st = .ok (φ, st')) : Ty decl Γ r s φ st st' := by
  simp only [parseStepMac] at h
  obtain ⟨⟨ψ, s₁⟩, h₁, h⟩ := Out.bind_ok h
  simp only [parseApplication] at h₁
  rw [← funOf_eq, hf] at h₁
  obtain ⟨j, hj, h₁⟩ := Out.bind_ok h₁
  cases hj
  obtain ⟨φs, sx, store, h1, ht, _, hψ⟩ := parseApp_seq h₁
  have hreal : i.sig.realm.getD r = r := by rw [hsig]; rfl
  rw [hreal] at h1
  rw [hsig] at h1 hψ
  simp only [FSig.inst] at h1 hψ
  have hla : args.length = (c.params.map (·.2)).length := by simp [hlen]
  obtain ⟨tl, gl⟩ := seqP_ty (E := E) (decl := decl) (fun a : Px × Tm => p r a.1 a.2) (forall_expect hp hg)
    (st := { st with store := st.store }) hsc hL hG (by rw [expect_clean hla]; exact hca) hwa h1
  have hψ' : ψ = .app i.sym φs := by
    rw [hψ]
    have : i.frealm = none := by simp [FInfo.frealm, hnm, hsig, FSig.realm, realmOf]
    simp [buildApp, this, hnm]
  clear hψ
  subst hψ'
  simp only [funArgs, hst, hf'] at h
  split at h
  · rename_i hlenφ
    obtain ⟨⟨χ, s₂⟩, h₂, h⟩ := Out.bind_ok h
    have hφ := (Prod.mk.inj (Out.ok.inj h)).1
    have hst' := (Prod.mk.inj (Out.ok.inj h)).2
    clear h
    subst hφ hst'
    have hl1 : (φs ++ [Fm.app .input [.app i.sym φs]]).length = (c.params ++ [("in", Srt.message)]).length := by
      simp [hlenφ]
    have hnd' : ((c.params ++ [("in", Srt.message)]).map Prod.fst).Nodup := by simpa using hnd
    rw [withInput_eq] at h₂
    have gb := hg r es (body c) _ (extS (numFrom 0 (c.params ++ [("in", .message)])) []) _ _ χ s₂
      (Sc.body (c.params ++ [("in", .message)]) hnd')
      (by intro x; rw [← names_body]; simp) hcb h₂
    have tb := hp r es (body c) _ _ (extS (numFrom 0 (c.params ++ [("in", .message)])) []) _ _ _ _ χ s₂
      (Sc.body (c.params ++ [("in", .message)]) hnd')
      (by intro x; rw [← names_body]; simp) (body_scope _) hcb hwb h₂
    have hsub : stepSubst i.sym φs = (List.range (φs ++ [Fm.app .input [.app i.sym φs]]).length).zip
        (φs ++ [Fm.app .input [.app i.sym φs]]) := by simp [stepSubst]
    obtain ⟨i1, i2⟩ := insert_ty hl1 hnd' (gb.nob hnb) gb tb
    dsimp only at *
    rw [hsub]
    have hpre : sx.tbl <+: s₂.tbl := by rw [← ht]; exact gb.tbl.pre
    have harg : ∀ q ∈ φs.zip (c.params.map (·.2)), (∀ C, Agree C Γ → HasSrt decl s₂.tbl C q.1 q.2) ∧
        (r = .sym → ∀ v, OccursFree v q.1 → (∃ p ∈ Γ, p.2 = v) ∧ realmOf v.sort ≠ some .ev) := by
      intro q hq
      obtain ⟨t, hm⟩ := zip_third (r := r) hla hq
      have hr := hre _ (List.of_mem_zip hq).2
      refine ⟨fun C hC => ?_, fun e v hv => ?_⟩
      · have := (tl.ty C hC _ hm).mono hpre
        rwa [norm_realm hr] at this
      · subst e
        exact tl.tags _ hm rfl (realm_sym hr) v hv
    have hstep : ∀ C, Agree C Γ → HasSrt decl s₂.tbl C (.app .input [.app i.sym φs]) .message := by
      intro C hC
      refine app1_ty .input (.app ((funOf_ok hE hf hsig).1.mono List.nil_prefix) (by simp [hlenφ]) fun q hq => (harg q hq).1 C hC)
    have hin : ∀ q ∈ (φs ++ [Fm.app .input [.app i.sym φs]]).zip (c.params ++ [("in", Srt.message)]),
        (∃ q' ∈ φs.zip (c.params.map (·.2)), q'.1 = q.1 ∧ q'.2 = q.2.2) ∨ (q.1 = .app .input [.app i.sym φs] ∧ q.2.2 = .message) := by
      intro q hq
      rw [List.zip_append hlenφ, List.mem_append] at hq
      rcases hq with hq | hq
      · left
        refine ⟨(q.1, q.2.2), ?_, rfl, rfl⟩
        rw [List.zip_map_right]
        exact List.mem_map.2 ⟨q, hq, rfl⟩
      · right
        simp only [List.zip_cons_cons, List.zip_nil_right, List.mem_singleton] at hq
        subst hq
        exact ⟨rfl, rfl⟩
    refine ⟨fun C hC => ?_, fun e he v hv => ?_, fun k => tb.tbl (ht ▸ tl.tbl k)⟩
    · refine i1 C fun q hq => ?_
      rcases hin q hq with ⟨q', hq', e1, e2⟩ | ⟨e1, e2⟩
      · rw [← e1, ← e2]
        exact (harg q' hq').1 C hC
      · rw [e1, e2]
        exact hstep C hC
    · obtain ⟨q, hq, hs, hv⟩ := i2 e he v hv
      rcases hin q hq with ⟨q', hq', e1, e2⟩ | ⟨e1, e2⟩
      · rw [← e1] at hv
        exact (harg q' hq').2 e v hv
      · rw [e1] at hv
        obtain ⟨b, hb, hv⟩ := occ_app (occ_app1 hv)
        obtain ⟨k, hk, rfl⟩ := List.getElem_of_mem hb
        refine (harg (φs[k], (c.params.map (·.2))[k]'(by simp; omega)) ?_).2 e v hv
        rw [List.mem_iff_getElem]
        exact ⟨k, by simp; omega, by simp⟩
  · cases h

/-! ## The whole elaborator -/

theorem parse_ty {E : Env} {decl : Sg} (hE : DeclOk E decl) (n : Nat) : PTy E decl (parse E n) := by
  induction n with
  | zero => intro r es t s st Γ L D G D' φ st' _ _ _ _ _ h; cases h
  | succ n hp =>
    have hg := parse_good E n
    intro r es t s st Γ L D G D' φ st' hsc hL hG hc hw h
    cases t with
    | letin b t₁ t₂ => exact let_ty hp hg hsc hL hG hc hw h
    | ite c a b => exact ite_ty hp hg hsc hL hG hc hw h
    | find vs c a b => exact find_ty hp hg hsc hL hG hc hw h
    | quant k vs b => exact quant_ty hp hg hsc hL hG hc hw h
    | cvar x => exact cvar_ty hE hp hg hsc hL hG hc hw h
    | app f args => exact app_ty hE hp hg hsc hL hG hc hw h
    | infx op ts => exact infx_ty hp hg hsc hL hG hc hw h
    | msg f args =>
      cases hw with
      | msg _ _ wst _ _ _ wa _ wb =>
      cases hc with
      | msg hf hf' hst hsig hnm hlen hre hnd hca hcb hnb =>
        rw [wst] at hst
        cases hst
        exact stepMac_ty hE hp hg (body := (·.message)) hsc hL hG hf hf' wst hsig hnm hlen hre hnd hca hcb hnb wa wb h
    | cond f args =>
      cases hw with
      | cond _ _ wst _ _ _ wa _ wb =>
      cases hc with
      | cond hf hf' hst hsig hnm hlen hre hnd hca hcb hnb =>
        rw [wst] at hst
        cases hst
        exact stepMac_ty hE hp hg (body := (·.condition)) hsc hL hG hf hf' wst hsig hnm hlen hre hnd hca hcb hnb wa wb h
    | mac m args => exact mac_ty hp hg hsc hL hG hc hw h

end Prs
end CV
